"""Writes MANIFEST.json from the table below."""
import json, os
here = os.path.dirname(os.path.abspath(__file__))
claims = []
def c(prop, status, theorems, note=""):
    claims.append({"property": prop, "status": status, "theorems": theorems, "note": note})

E = "NW.EdgeList."
B = "NW.Bin."
c("C01", "proved", [E+"edgelist_records_pushes", E+"edgelist_history_aborts_iff", E+"edgelist_ofList"])
c("C02", "partial", [E+"edgelist_num_vertices_partial", "NW.BiEdgeList.biedgelist_num_vertices_partial",
   E+"edgelist_cardinality_wraps", E+"edgelist_cardinality_wraps_every_width"],
  "false for the largest id of the vertex id type (wrap-around); proved for all smaller ids")
c("C03", "proved", [B+"edgelist_binary_roundtrip", B+"biedgelist_binary_roundtrip", B+"imageOf_injective"])
c("C04", "partial", [E+"edgelist_eq_exact_partial", E+"edgelist_eq_prefix", E+"edgelist_eq_oob", E+"edgelist_eq_characterised"],
  "false for lists of different length: prefixes compare equal and a shorter right operand is read out of bounds")
c("C05", "partial", [B+"csr_binary_roundtrip_index64", B+"csr_binary_roundtrip_index32_partial", B+"csr_binary_index32_clobbers",
   B+"adjacency_binary_roundtrip_index64"],
  "proved for 8-byte index types; false for the default 4-byte index type, whose header read overwrites a pointer")
exec(open(os.path.join(here, "manifest_more.py")).read()) if os.path.exists(os.path.join(here, "manifest_more.py")) else None
claims.sort(key=lambda x: x["property"])
json.dump({"claims": claims}, open(os.path.join(here, "..", "MANIFEST.json"), "w"), indent=1)
print(len(claims), "claims")
