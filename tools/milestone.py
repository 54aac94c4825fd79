"""Usage: milestone.py FILE. FILE is a JSON object with the keys claim (a list for claims.py), design, module, findings (rows of the tables of DESIGN.md), property."""
import json, subprocess, sys
m = json.load(open(sys.argv[1]))
with open('tools/claims.py') as f: t = f.read().rstrip()
t += '\nc(' + ','.join(json.dumps(x) for x in m['claim']) + ')\n'
open('tools/claims.py', 'w').write(t)
L = open('DESIGN.md').read().split('\n')
cid = m['claim'][0]
prev = 'C%02d' % (int(cid[1:]) - 1)
def rows(pred): return [k for k, l in enumerate(L) if pred(l)]
# section 4: the first table row of the previous property
k = rows(lambda l: l.startswith('| %s |' % prev))[0]
L.insert(k + 1, '| %s | %s |' % (cid, m['design']))
# section 5: the last row of the module table
s5 = [k for k, l in enumerate(L) if l.startswith('## 5')][0]
s6 = [k for k, l in enumerate(L) if l.startswith('## 6')][0]
k = [k for k in range(s5, s6) if L[k].startswith('| `')][-1]
L.insert(k + 1, '| %s |' % m['module'])
# section 6: the last row of the findings
s6 = [k for k, l in enumerate(L) if l.startswith('## 6')][0]
s7 = [k for k, l in enumerate(L) if l.startswith('## 7')][0]
k = [k for k in range(s6, s7) if L[k].startswith('| C')][-1]
L[k + 1:k + 1] = ['| %s | %s |' % (cid, x) for x in m['findings']]
open('DESIGN.md', 'w').write('\n'.join(L))
subprocess.run(['python3', 'tools/addprop.py'], input=json.dumps(m['property']), text=True, check=True)
