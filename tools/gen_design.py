"""Rewrite the results section (the last one) of DESIGN.md from MANIFEST.json and properties.jsonl."""
import json, os
os.chdir(os.path.join(os.path.dirname(__file__), ".."))
titles = {}
for l in open("properties.jsonl"):
    d = json.loads(l)
    titles[d["id"]] = d["title"]
text = open("DESIGN.md").read()
head = text.split("(generated from MANIFEST.json", 1)[0]
out = [head + "(generated from MANIFEST.json and properties.jsonl by tools/gen_design.py)\n"]
for c in json.load(open("MANIFEST.json"))["claims"]:
    ths = ", ".join("`" + t.replace("Simpy.", "", 1) + "`" for t in c["theorems"])
    note = c["note"] or "as stated."
    out.append(f"* **{c['property']}** {titles[c['property']]}: *{c['status']}*. {note}\n  {ths}\n")
open("DESIGN.md", "w").write("\n".join(out))
