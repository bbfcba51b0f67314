# usage: python3 /tmp/reg.py FILE.json ; {"id","title","statement","quant","why","anchors":[],"status","theorems":[],"note","design":"| .. |","finding":optional}
import json,sys,subprocess
d=json.load(open(sys.argv[1])); V='/verif/'
s=open(V+'tools/gen_properties.py').read()
why='INP' if d['why']=='INP' else json.dumps(d['why'])
line='p(%s, %s, %s,\n  %s, %s, %s)\n'%(json.dumps(d['id']),json.dumps(d['title']),json.dumps(d['statement']),json.dumps(d['quant']),why,', '.join(json.dumps(a) for a in d['anchors']))
s=s.replace('with open(os.path.join(os',line+'with open(os.path.join(os',1); open(V+'tools/gen_properties.py','w').write(s)
s=open(V+'tools/claims.py').read().rstrip('\n')+'\nc(%s, %s, %s, %s)\n'%tuple(json.dumps(d[k]) for k in ('id','status','theorems','note')); open(V+'tools/claims.py','w').write(s)
s=open(V+'DESIGN.md').read()
i=s.index('## Findings: properties'); s=s[:i].rstrip('\n')+'\n| %s | %s |\n\n'%(d['id'],d['design'])+s[i:]
if d.get('finding'):
    i=s.index('## Not modelled'); s=s[:i].rstrip('\n')+'\n* %s: %s\n\n'%(d['id'],d['finding'])+s[i:]
open(V+'DESIGN.md','w').write(s)
subprocess.run('cd /verif && python3 tools/gen_properties.py && python3 tools/gen_manifest.py',shell=True)
