import json
root='/verif'
st=json.load(open(root+'/tools/status.json'))
props=[json.loads(l) for l in open(root+'/properties.jsonl')]
props.sort(key=lambda p:int(p['id'][1:]))
s=open(root+'/tools/design_head.md').read()
s+='\n## Where the code disagrees with a property\n\nEach line is proved in Lean by a theorem with `refuted` in its name (a concrete witness, or a statement for all inputs).\n\n'
for p in props:
    a,n=st[p['id']]
    if 'refuted' in n:
        s+='* **%s %s** – %s.\n'%(p['id'],p['title'],n)
s+='\n## Status of every property\n\n| id | title | status | scope |\n|----|-------|--------|-------|\n'
for p in props:
    a,n=st[p['id']]
    s+='| %s | %s | %s | %s |\n'%(p['id'],p['title'],a,n or 'as stated')
open(root+'/DESIGN.md','w').write(s)
