"""Appends mutation results (run outside /verif) to seeded/LOG.jsonl, skipping those already there."""
import json, os, sys

log = os.path.join(os.path.dirname(os.path.abspath(__file__)), "..", "seeded", "LOG.jsonl")
tight = json.load(open(sys.argv[1])) if sys.argv[1] != "-" else {}
seen = set()
if os.path.exists(log):
    for l in open(log):
        d = json.loads(l)
        seen.add((d["definition"], d["edit"]))
with open(log, "a") as out:
    for path in sys.argv[2:]:
        for l in open(path):
            r = json.loads(l)
            m = r["mu"]
            if r["status"] not in ("killed", "survived") or r.get("def_error"):
                continue
            e = {
                "definition": r["definition"],
                "edit": m["edit"] + ": `" + m["old"].strip() + "` becomes `" + m["new"].strip() + "`",
                "claim_broken": m.get("claim", ""),
                "theorems_failed": r["fails"],
                "theorems_tightened": [],
            }
            if r["status"] == "survived":
                t = tight.get(m["edit"])
                if t is None:
                    print("survivor without analysis:", m["edit"])
                    continue
                e["theorems_tightened"] = t.get("tightened", [])
                e["note"] = t["note"]
            if (e["definition"], e["edit"]) in seen:
                continue
            seen.add((e["definition"], e["edit"]))
            out.write(json.dumps(e, ensure_ascii=False) + "\n")
