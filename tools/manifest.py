"""Regenerates MANIFEST.json from the theorem names in lean/Verif/Props and tools/notes.json."""
import glob, json, os, re
root = os.path.dirname(os.path.dirname(os.path.abspath(__file__)))
notes = json.load(open(root + '/tools/notes.json'))
thms = {}
for p in sorted(glob.glob(root + '/lean/Verif/Props/*.lean')):
    ns = None
    for line in open(p):
        m = re.match(r'namespace (\S+)', line)
        if m:
            ns = m.group(1)
        m = re.match(r'theorem ((C\d\d)_\S+)', line)
        if m:
            thms.setdefault(m.group(2), []).append(ns + '.' + m.group(1))
claims = []
for line in open(root + '/properties.jsonl'):
    cid = json.loads(line)['id']
    if cid not in thms and cid not in notes:
        continue
    n = notes.get(cid, {})
    claims.append({'property': cid, 'status': n.get('status', 'proved'),
                   'theorems': thms.get(cid, []), 'note': n.get('note', '')})
json.dump({'claims': claims}, open(root + '/MANIFEST.json', 'w'), indent=1)
print(len(claims), 'claims', sum(len(c['theorems']) for c in claims), 'theorems')
