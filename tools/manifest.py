#!/usr/bin/env python3
"""Single source of MANIFEST.json. c(property, status, theorems, note)."""
import json, os, re
HERE = os.path.dirname(os.path.abspath(__file__))
claims = []
def c(pid, status, theorems, note, ns=""):
    claims.append({"property": pid, "status": status,
                   "theorems": [ns + "." + t if ns and not t.startswith("Verif.") else t for t in theorems.split()], "note": note})
H = "Verif.Hir"
c("C01", "proved", "c01_idempotent c01_no_alias c01_unions c01_same_type c01_alias", "canonicaliser with fuel; original_name and positions dropped", H)
c("C02", "proved", "c02_equality c02_terminates c02_rearranged", "equality check = ACI congruence of alias-expanded types", H)
c("C03", "proved", "c03_assignable c03_terminates c03_refl c03_trans c03_antisymm c03_top c03_members", "subsumption check = least preorder with any as top and union as join", H)
c("C04", "proved", "c04_left c04_right c04_least", "", H)
c("C05", "proved", "c05_none c05_members", "", H)
c("C06", "proved", "c06_injective c06_functional", "identity strings before the 64-bit DefaultHasher; record names without ')'", H)
c("C07", "proved", "c07_resolves c07_rejected_cyclic", "petgraph toposort modelled by an algorithm with the same proved contract", H)
c("C08", "proved", "c08_comparable c08_terminates", "", H)
c("C09", "partial", "c09_sound c09_incomplete c09_complete_partial", "soundness proved; completeness is false of the code (c09_incomplete: two mutually recursive records behind unions are accepted); completeness proved when no field is a union of records only", H)
exec(open(os.path.join(HERE, "manifest_more.py")).read()) if os.path.exists(os.path.join(HERE, "manifest_more.py")) else None
json.dump({"claims": claims}, open(os.path.join(HERE, "..", "MANIFEST.json"), "w"), indent=1, ensure_ascii=False)
props = [json.loads(l)["id"] for l in open(os.path.join(HERE, "..", "properties.jsonl"))]
have = {x["property"] for x in claims}
print("claimed", len(have), "of", len(props), "missing", [p for p in props if p not in have])
with open("/tmp/check_manifest.lean", "w") as f:
    f.write("import Verif\n" + "".join(f"#print axioms {t}\n" for x in claims for t in x["theorems"]))
