#!/usr/bin/env python3
"""Apply each mutant of seeded/mutants.py to a scratch copy of the model and rebuild.
usage: mutate.py [id ...]   (default: all mutants not yet in seeded/LOG.jsonl)
"""
import json, os, re, subprocess, sys
ROOT = '/verif'; SCR = '/tmp/mut/lean'
ns = {}
exec(open(f'{ROOT}/seeded/mutants.py').read(), ns)
M = ns['M']
LOG = f'{ROOT}/seeded/LOG.jsonl'
done = set()
if os.path.exists(LOG):
    for l in open(LOG):
        done.add(json.loads(l).get('id'))
want = sys.argv[1:]
subprocess.run(['mkdir', '-p', SCR])
def sync():
    subprocess.run(['rsync', '-a', '--delete', '--exclude', '.lake', f'{ROOT}/lean/', SCR + '/'], check=False) if subprocess.call('which rsync >/dev/null 2>&1', shell=True) == 0 else \
        subprocess.run(f'rm -rf {SCR}/Verif {SCR}/Verif.lean && cp -a {ROOT}/lean/Verif {ROOT}/lean/Verif.lean {SCR}/', shell=True, check=True)
decl = re.compile(r'^\s*(?:private |protected |noncomputable )*(?:theorem|lemma|def|example|instance|abbrev)\s*([^\s:({\[]*)')
for m in M:
    if want and m['id'] not in want: continue
    if not want and m['id'] in done: continue
    sync()
    f = f"{SCR}/Verif/{m['file']}"
    src = open(f).read()
    if src.count(m['old']) != m.get('n', 1):
        print(m['id'], 'PATTERN COUNT', src.count(m['old'])); continue
    open(f, 'w').write(src.replace(m['old'], m['new']))
    try:
        r = subprocess.run(['lake', 'build'] + m.get('targets', []), cwd=SCR, capture_output=True, text=True, timeout=1500)
        out = r.stdout + r.stderr
    except subprocess.TimeoutExpired:
        out = 'TIMEOUT'
    failed = []
    for fn, ln in re.findall(r'error: (Verif/\S+\.lean):(\d+):', out):
        lines = open(f'{SCR}/{fn}').read().split('\n')
        for i in range(int(ln) - 1, -1, -1):
            g = decl.match(lines[i])
            if g and not lines[i].startswith('  '):
                name = g.group(1) or f'example@{fn}:{i+1}'
                if name not in failed: failed.append(name)
                break
    notbuilt = sorted(set(re.findall(r'^- (Verif\S*)', out, re.M)))
    rec = dict(id=m['id'], definition=m['defn'], file=m['file'], edit=m['edit'], claim=m['claim'],
               failed=failed, modules_failed=notbuilt, tightened=m.get('tightened', []))
    ok = bool(failed)
    print(m['id'], 'KILLED' if ok else 'SURVIVED', failed, '' if ok else out[-600:], flush=True)
    if ok:
        with open(LOG, 'a') as fo: fo.write(json.dumps(rec) + '\n')
sync()
