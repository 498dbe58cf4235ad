"""Writes MANIFEST.json: the theorems named Cxx_... in lean/Verif/Props, with status and notes."""
import glob, json, os, re
from notes import NOTES

root = os.path.dirname(os.path.dirname(os.path.abspath(__file__)))
thms = {}
for f in sorted(glob.glob(root + "/lean/Verif/Props/*.lean")):
    src = open(f).read()
    # strip block comments
    src = re.sub(r"/-.*?-/", "", src, flags=re.S)
    ns = []
    for line in src.splitlines():
        m = re.match(r"namespace (\S+)", line)
        if m:
            ns.append(m.group(1))
        m = re.match(r"end (\S+)", line)
        if m and ns and ns[-1] == m.group(1):
            ns.pop()
        m = re.match(r"(?:@\[.*?\] )?theorem (C(\d\d\d?)_\w+)", line)
        if m:
            thms.setdefault("C" + m.group(2), []).append(".".join(ns + [m.group(1)]))

claims = []
for line in open(root + "/properties.jsonl"):
    cid = json.loads(line)["id"]
    status, note = NOTES.get(cid, (None, "not modelled yet"))
    if status is None:
        continue
    claims.append({"property": cid, "status": status, "theorems": thms.get(cid, []), "note": note})
json.dump({"claims": claims}, open(root + "/MANIFEST.json", "w"), indent=1)
print(len(claims), "claims,", sum(len(c["theorems"]) for c in claims), "theorems")
missing = [c for c in thms if c not in NOTES]
print("theorems without note:", missing)
