"""Regenerate MANIFEST.json from the property theorems in lean/Verif/Props and tools/notes.json.

tools/notes.json maps a property id to {"status": ..., "note": ...}.  A property whose theorems are all
present defaults to "proved"; a property with no theorem must have an entry in notes.json."""
import glob, json, re
root = '/verif'
thms = {}
for f in sorted(glob.glob(root + '/lean/Verif/Props/*.lean')):
    text = open(f).read()
    for m in re.finditer(r'^theorem (C\d\d+)(\w*)', text, re.M):
        ns = re.findall(r'^namespace ([\w.]+)', text[:m.start()], re.M)[-1]
        thms.setdefault(m.group(1), []).append(ns + '.' + m.group(1) + m.group(2))
notes = json.load(open(root + '/tools/notes.json'))
claims = []
for line in open(root + '/properties.jsonl'):
    i = json.loads(line)['id']
    n = notes.get(i, {})
    if i not in thms and 'status' not in n:
        n = {"status": "partial", "note": "not proved yet"}
    claims.append({"property": i, "status": n.get("status", "proved"), "theorems": thms.get(i, []),
                   "note": n.get("note", "")})
json.dump({"claims": claims}, open(root + '/MANIFEST.json', 'w'), indent=1)
print(sum(len(v) for v in thms.values()), 'theorems;', [c['property'] for c in claims if not c['theorems']])
