"""Regenerates MANIFEST.json from the theorem names cNN_* found in lean/Verif/Props."""
import re,json,glob,os
root=os.path.join(os.path.dirname(__file__),'..')
props=[json.loads(l)['id'] for l in open(root+'/properties.jsonl')]
notes=json.load(open(root+'/tools/notes.json'))
th={}
for f in sorted(glob.glob(root+'/lean/Verif/Props/*.lean')):
    ns=[]
    for m in re.finditer(r'^(?:theorem ((?:\w+\.)*c(\d\d\d?)_\w+)|namespace (\S+)|(end) ?(\S*)|(?:noncomputable )?(section) ?(\S*))',open(f).read(),re.M):
        if m.group(1): th.setdefault('C'+m.group(2),[]).append('.'.join([x for x in ns if x]+[m.group(1)]))
        elif m.group(3): ns.append(m.group(3))
        elif m.group(4): ns.pop()
        elif m.group(6): ns.append('')
claims=[]
for p in props:
    n=notes.get(p,{})
    t=th.get(p,[])
    st=n.get('status') or ('partial' if any(x.endswith('_partial') or x.endswith('_fails') for x in t) or not t else 'proved')
    claims.append({'property':p,'status':st,'theorems':t,'note':n.get('note','' if t else 'Not yet proved.')})
json.dump({'claims':claims},open(root+'/MANIFEST.json','w'),indent=1)
print(sum(c['status']=='proved' for c in claims),'proved',sum(c['status']=='partial' for c in claims),'partial',[c['property'] for c in claims if not c['theorems']])
