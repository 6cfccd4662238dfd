"""Writes MANIFEST.json and lean/Verif.lean from the theorem names in lean/Verif/Props and notes.json."""
import glob, json, os, re

root = os.path.dirname(os.path.dirname(os.path.abspath(__file__)))
lean = os.path.join(root, "lean")
mods = sorted(glob.glob(os.path.join(lean, "Verif", "**", "*.lean"), recursive=True))
with open(os.path.join(lean, "Verif.lean"), "w") as f:
    for m in mods:
        f.write("import " + os.path.relpath(m, lean)[:-5].replace("/", ".") + "\n")
thms = {}
for m in mods:
    if "/Props/" not in m:
        continue
    ns = []
    for kind, name in re.findall(r"^(namespace|end|theorem) (\S+)", open(m).read(), re.M):
        if kind == "namespace":
            ns.append(name)
        elif kind == "end" and ns and ns[-1] == name:
            ns.pop()
        elif kind == "theorem" and re.match(r"C\d\d+_", name):
            thms.setdefault(name.split("_")[0], []).append(".".join(ns + [name]))
notes = json.load(open(os.path.join(root, "tools", "notes.json")))
claims = []
for line in open(os.path.join(root, "properties.jsonl")):
    p = json.loads(line)
    i = p["id"]
    st, note = notes.get(i, ["partial", "Not yet proved."])
    if i not in thms:
        st, note = "partial", "No theorem yet."
    claims.append({"property": i, "status": st, "theorems": thms.get(i, []), "note": note})
json.dump({"claims": claims}, open(os.path.join(root, "MANIFEST.json"), "w"), indent=1)
print(sum(1 for c in claims if c["status"] == "proved"), "proved;", sum(len(c["theorems"]) for c in claims), "theorems;",
      [c["property"] for c in claims if not c["theorems"]], "without theorem")
