#!/usr/bin/env python3
"""Writes /verif/DESIGN.md from tools/design_text.md, tools/design_rows.json, properties.jsonl,
tools/notes.json and the line citations in the Lean sources."""
import ast, glob, json, os, re

ROOT = os.path.dirname(os.path.dirname(os.path.abspath(__file__)))
REPO = "/repo/src/elli"


def cites():
    out = {}
    for f in glob.glob(ROOT + "/lean/Verif/**/*.lean", recursive=True):
        for d in re.findall(r"/-[-!].*?-/", open(f).read(), re.S):
            cur = None
            for m in re.finditer(r"([a-z_0-9/]+\.(?:py|lark))|(\d+)(?:-(\d+))?", d):
                if m.group(1):
                    cur = m.group(1).split("/")[-1]
                elif cur:
                    a = int(m.group(2))
                    out.setdefault(cur, set()).update(range(a, int(m.group(3) or a) + 1))
    return out


def coverage():
    c = cites()
    rows = []
    for f in sorted(glob.glob(REPO + "/**/*.py", recursive=True)):
        b = os.path.basename(f)
        yes, no = [], []

        def walk(n, p):
            for x in ast.iter_child_nodes(n):
                if isinstance(x, ast.FunctionDef):
                    hit = any(l in c.get(b, ()) for l in range(x.lineno, x.end_lineno + 1))
                    (yes if hit else no).append(p + x.name)
                    walk(x, p + x.name + ".")
                elif isinstance(x, ast.ClassDef):
                    walk(x, p + x.name + ".")

        walk(ast.parse(open(f).read()), "")
        if yes or no:
            rows.append((f.replace(REPO + "/", ""), yes, no))
    return rows


def main():
    text = open(ROOT + "/tools/design_text.md").read()
    rows = json.load(open(ROOT + "/tools/design_rows.json"))
    notes = json.load(open(ROOT + "/tools/notes.json"))
    files = {}
    for f in glob.glob(ROOT + "/lean/Verif/Props/*.lean"):
        for m in re.finditer(r"^theorem (C\d\d+)_", open(f).read(), re.M):
            files.setdefault(m.group(1), set()).add(os.path.basename(f)[:-5])
    tab = ["| Id | Property | Model | Proof | Status and findings | Props |", "|---|---|---|---|---|---|"]
    for l in open(ROOT + "/properties.jsonl"):
        d = json.loads(l)
        i = d["id"]
        m, p = rows[i]
        tab.append("| %s | %s | %s | %s | **%s**. %s | %s |" % (i, d["title"], m, p, notes[i][0], notes[i][1].strip().replace("|", "\\|"), ", ".join(sorted(files.get(i, [])))))
    text = text.replace("@TABLE@", "\n".join(tab))
    cov = ["| File | Functions with a cited counterpart | Functions without |", "|---|---|---|"]
    for f, y, n in coverage():
        cov.append("| %s | %s | %s |" % (f, ", ".join(y) or "–", ", ".join(n) or "–"))
    text = text.replace("@COVERAGE@", "\n".join(cov))
    open(ROOT + "/DESIGN.md", "w").write(text)


main()
