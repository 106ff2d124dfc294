"""Rewrites the table of modelled code in DESIGN.md from the citations in the model files."""
import glob, os, re, collections
root = os.path.join(os.path.dirname(os.path.abspath(__file__)), "..")
# bare names are taken as the file of that name, where there is only one (in the unit's own
# citations, or in the repository)
cit = re.compile(r'((?:/repo/)?(?:(?:src|std|plugins)/[\w/.\-]+|\w+)\.(?:c|h|zc))\b(?::|,? lines? | )?((?:\d+(?:-\d+)?(?:, ?| and )?)+)?')
table = collections.defaultdict(lambda: [set(), set()])
for f in glob.glob(os.path.join(root, "lean/Verif/**/*.lean"), recursive=True):
    if not f.endswith("Model.lean") and os.path.basename(f) not in ("Probe.lean",) and "/repo/" not in open(f).read(): continue
    unit = os.path.relpath(f, os.path.join(root, "lean/Verif")).split("/")[0].replace(".lean", "")
    txt = re.sub(r'\s+', ' ', open(f).read())
    for m in cit.finditer(txt):
        p = m.group(1).replace("/repo/", "")
        if "/" not in p:
            full = {q for q in re.findall(r'(?:src|std|plugins)/[\w/.\-]+', txt) if q.endswith("/" + p)}
            full = full or {os.path.relpath(q, "/repo") for q in glob.glob("/repo/s*/**/" + p, recursive=True)}
            if len(full) != 1: continue
            p = full.pop()
        table[p][0].add(unit)
        for a, b in re.findall(r'(\d+)(?:-(\d+))?', m.group(2) or ""):
            a = int(a); b = int(b or a)
            if b >= a and b - a < 3000: table[p][1].update(range(a, b + 1))
def ranges(s):
    out = []
    for n in sorted(s):
        if out and n <= out[-1][1] + 6: out[-1][1] = n
        else: out.append([n, n])
    return ", ".join(f"{a}-{b}" if a != b else str(a) for a, b in out)
rows = ["| file of the repository | lines cited | units |", "|---|---|---|"]
for p in sorted(table):
    u, l = table[p]
    rows.append(f"| {p} | {ranges(l) or 'whole functions'} | {', '.join(sorted(u))} |")
d = os.path.join(root, "DESIGN.md"); s = open(d).read()
a, b = "<!-- coverage begin -->", "<!-- coverage end -->"
i, j = s.index(a) + len(a), s.index(b)
open(d, "w").write(s[:i] + "\n" + "\n".join(rows) + "\n" + s[j:])
