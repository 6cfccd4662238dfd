"""Mutation test: edits a scratch copy of the model, rebuilds, reports which theorems fail, appends to seeded/LOG.jsonl.

usage: mutate.py mutants.json   (list of {"file", "old", "new", "claim", "breaks"[, "tightened"]})
The scratch copy is /tmp/mut/lean (made from /verif/lean when missing); the edit is undone after each run.
"""
import json, os, re, subprocess, sys

SRC, DST = "/verif/lean", "/tmp/mut/lean"


def sh(cmd, **kw):
    return subprocess.run(cmd, shell=True, capture_output=True, text=True, **kw)


def sync():
    os.makedirs("/tmp/mut", exist_ok=True)
    sh(f"rm -rf {DST} && cp -a {SRC} {DST}")


def decl(path, line):
    name = None
    for i, l in enumerate(open(path), 1):
        if i > line:
            break
        m = re.match(r"(?:open Classical in )?(?:noncomputable )?(theorem|lemma|def|instance|example|abbrev|inductive|structure)\s*([^\s:({\[]*)", l)
        if m:
            name = m.group(2) or "example"
    return name


def targets(claims):
    """the Props modules with theorems about the claims"""
    pat = re.compile(r"^theorem (?:" + "|".join(claims.split(",")) + ")_", re.M)
    d = os.path.join(DST, "Verif/Props")
    return sorted("Verif.Props." + f[:-5] for f in os.listdir(d) if pat.search(open(os.path.join(d, f)).read()))


def run(m):
    path = os.path.join(DST, m["file"])
    text = open(path).read()
    if text.count(m["old"]) < 1:
        return None
    n = m.get("nth", 0)
    parts = text.split(m["old"])
    new = m["old"].join(parts[: n + 1]) + m["new"] + m["old"].join(parts[n + 1 :])
    open(path, "w").write(new)
    try:
        r = sh(f"taskset -c 0,1 lake build {' '.join(targets(m['claim']))} 2>&1", cwd=DST)
        out = r.stdout
        failed, mods = [], []
        for f, l in re.findall(r"error: (Verif/\S+?\.lean):(\d+):", out):
            d = decl(os.path.join(DST, f), int(l))
            t = f"{f[6:-5].replace('/', '.')}.{d}"
            if t not in failed:
                failed.append(t)
        for mod in re.findall(r"- (Verif\.\S+)", out):
            mods.append(mod)
        return failed, mods
    finally:
        open(path, "w").write(text)


def dependents(mods, want):
    """modules among `want` that import one of `mods` and hence were not checked"""
    imp = {}
    for root, _, fs in os.walk(os.path.join(DST, "Verif")):
        for f in fs:
            if f.endswith(".lean"):
                p = os.path.join(root, f)
                name = os.path.relpath(p, DST)[:-5].replace("/", ".")
                imp[name] = re.findall(r"^import (Verif\.\S+)", open(p).read(), re.M)
    bad = set(mods)
    ch = True
    while ch:
        ch = False
        for k, v in imp.items():
            if k not in bad and any(x in bad for x in v):
                bad.add(k)
                ch = True
    return sorted(k for k in bad - set(mods) if k in want)


if __name__ == "__main__":
    sync()
    for m in json.load(open(sys.argv[1])):
        r = run(m)
        if r is None:
            print("NOT FOUND", m["file"], m["old"][:60])
            continue
        failed, mods = r
        dep = dependents(mods, targets(m["claim"]))
        hit = [f for f in failed if f.split(".")[-1].startswith(tuple(c + "_" for c in m["claim"].split(",")))]
        print(("KILLED " if failed else "SURVIVED"), m["claim"], "|", m["file"], "|", m["breaks"], "\n    failed:", failed, "\n    direct:", hit,
              "\n    unchecked:", dep, flush=True)
        with open("/verif/seeded/LOG.jsonl", "a") as f:
            f.write(json.dumps({"definition": m.get("definition", m["file"]), "edit": f"{m['old']}  ->  {m['new']}", "claim_broken": m["claim"] + ": " + m["breaks"],
                                "theorems_failed": failed, "modules_not_checked": dep, "theorems_tightened": m.get("tightened", [])}, ensure_ascii=False) + "\n")
