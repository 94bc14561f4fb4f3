#!/usr/bin/env python3
"""Seeded-bug testing of the theorems.

usage: seed.py BATCH.py [name ...]

BATCH.py defines M, a list of dictionaries with the keys
  name     short name of the wrong program
  file     file below lean/Verif that is edited
  defn     the definition edited
  old/new  the exact text and its replacement (old must occur exactly once)
  edit     the edit in words
  claim    the claim that is false of the edited program
  props    ids of the properties whose theorems must fail
Every edit is applied to a scratch copy outside /verif, which is then built.  A
property theorem counts as failed if its own proof or a declaration it depends on
(transitively, in the unedited library) is rejected by Lean.  One JSON line per
edit is appended to seeded/LOG.jsonl.

With DEEP=1 in the environment the rejected proofs are replaced by `sorry` in the scratch copy
and the build is repeated, so that modules which import a rejected one are checked too; the
proofs rejected in all rounds are reported.
"""
import json, os, re, subprocess, sys, collections
VERIF = '/verif'
TOP = os.environ.get('SEED_DIR', '/tmp/seed')
SCR = TOP + '/lean'
DEPS = r'''
import Verif
open Lean
run_cmd Lean.Elab.Command.liftCoreM do
  let env ← getEnv
  let ours (n : Name) : Bool := match env.getModuleIdxFor? n with
    | some i => (env.header.moduleNames[i.toNat]!).getRoot == `Verif
    | none => false
  for (n, c) in env.constants.map₁.toList do
    if ours n then
      let mod := env.header.moduleNames[(env.getModuleIdxFor? n).get!.toNat]!
      let mut used := c.type.getUsedConstants
      if let some v := c.value? (allowOpaque := true) then used := used ++ v.getUsedConstants
      let r ← findDeclarationRanges? n
      let (a, b) := match r with
        | some r => (r.range.pos.line, r.range.endPos.line)
        | none => (0, 0)
      IO.println s!"{mod}\t{n}\t{a}\t{b}\t{" ".intercalate ((used.toList.filter ours).map toString)}"
'''

def sh(cmd, **kw):
    return subprocess.run(cmd, shell=True, capture_output=True, text=True, **kw)

def sync():
    os.makedirs(SCR, exist_ok=True)
    sh(f'rsync -a --delete --checksum --exclude .lake {VERIF}/lean/ {SCR}/') if sh('which rsync').returncode == 0 else \
        sh(f'cd {VERIF}/lean && find . -path ./.lake -prune -o -type f -print | while read f; do mkdir -p {SCR}/$(dirname $f); cmp -s $f {SCR}/$f || cp $f {SCR}/$f; done')
    if not os.path.exists(f'{SCR}/.lake'):
        sh(f'cp -r {VERIF}/lean/.lake {SCR}/.lake')

def load_deps():
    r = sh('lake build', cwd=SCR)
    assert r.returncode == 0, r.stdout[-3000:]
    open(f'{TOP}/deps.lean', 'w').write(DEPS)
    out = sh(f'lake env lean {TOP}/deps.lean', cwd=SCR).stdout
    decls = {}; bymod = collections.defaultdict(list)
    for l in out.splitlines():
        p = l.split('\t')
        if len(p) != 5: continue
        decls[p[1]] = p[4].split()
        if int(p[2]): bymod[p[0]].append((int(p[2]), int(p[3]), p[1]))
    return decls, bymod

def closure_users(decls, bad):
    users = collections.defaultdict(set)
    for d, us in decls.items():
        for u in us: users[u].add(d)
    seen = set(bad); st = list(bad)
    while st:
        x = st.pop()
        for y in users[x]:
            if y not in seen: seen.add(y); st.append(y)
    return seen

START = re.compile(r'^(?:@\[[^\]]*\]\s*)?(?:private |protected |noncomputable )*(theorem|def|abbrev|instance|example|structure|inductive)\b\s*(\S*)')

def block(lines, ln):
    """The command that contains line ln (1-based): kind, name, first line, line after the last."""
    a = ln - 1
    while a >= 0 and not START.match(lines[a]): a -= 1
    if a < 0: return None
    b = a + 1
    while b < len(lines) and (lines[b][:1] in ' \t' or lines[b].strip() == '' or lines[b].startswith('|')): b += 1
    m = START.match(lines[a])
    return m.group(1), m.group(2), a, b

def stub(text):
    """Replace the proof by sorry."""
    depth = 0; i = 0
    while i < len(text):
        c = text[i]
        if text.startswith('--', i):
            i = text.index('\n', i); continue
        if c in '([{⟨': depth += 1
        elif c in ')]}⟩': depth -= 1
        elif depth == 0 and text.startswith(':=', i): return text[:i] + ':= by sorry\n\n'
        elif depth == 0 and re.match(r'\n\s*\| ', text[i:]): return text[:i] + ' := by sorry\n\n'
        i += 1
    return None

def deep_build(bymod):
    """Build, stubbing rejected proofs, until everything builds.  Returns (names, examples, stuck)."""
    names = set(); ex = set(); saved = {}
    stuck = None
    for rnd in range(40):
        r = sh('lake build', cwd=SCR, timeout=4000)
        if r.returncode == 0: break
        errs = sorted(set((f, int(l)) for f, l in re.findall(r'(?m)^error: (Verif/[\w/]+\.lean):(\d+):', r.stdout + r.stderr)))
        edits = collections.defaultdict(dict)
        for f, ln in errs:
            path = f'{SCR}/{f}'
            lines = open(path).read().split('\n')
            bl = block(lines, ln)
            if bl is None: stuck = f'{f}:{ln}'; continue
            kind, name, a, b = bl
            if kind not in ('theorem', 'example'): stuck = f'{f}:{ln} {kind} {name}'; continue
            t = stub('\n'.join(lines[a:b]) + '\n')
            if t is None: stuck = f'{f}:{ln} {name}'; continue
            edits[path][a] = (b, t)
            if kind == 'example': ex.add(f'{f}:{ln}')
            else:
                short = name.replace('_root_.', '')
                cand = [n for _, _, n in bymod[f[:-5].replace('/', '.')] if n == short or n.endswith('.' + short)]
                names.add(min(cand, key=len) if cand else short)
        if stuck or not edits: stuck = stuck or 'no progress'; break
        for path, es in edits.items():
            txt = open(path).read()
            saved.setdefault(path, txt)
            lines = txt.split('\n')
            for a in sorted(es, reverse=True):
                b, t = es[a]
                lines[a:b] = t.rstrip('\n').split('\n') + ['']
            open(path, 'w').write('\n'.join(lines))
    else: stuck = 'too many rounds'
    for path, txt in saved.items(): open(path, 'w').write(txt)
    return names, ex, stuck

def main():
    deep = os.environ.get('DEEP') == '1'
    ns = {}
    exec(open(sys.argv[1]).read(), ns)
    only = set(sys.argv[2:])
    sync()
    decls, bymod = load_deps()
    man = json.load(open(f'{VERIF}/MANIFEST.json'))
    thms = {c['property']: c['theorems'] for c in man['claims']}
    allprops = collections.defaultdict(set)
    for c in man['claims']:
        for t in c['theorems']: allprops[t].add(c['property'])
    for m in ns['M']:
        if only and m['name'] not in only: continue
        path = f"{SCR}/Verif/{m['file']}"
        src = open(path).read()
        if src.count(m['old']) != 1:
            print(m['name'], 'BAD PATTERN', src.count(m['old'])); continue
        new = src.replace(m['old'], m['new'])
        open(path, 'w').write(new)
        # lines: keep numbering in unedited coordinates for the edited file
        at = src[:src.index(m['old'])].count('\n') + 1
        delta = m['new'].count('\n') - m['old'].count('\n')
        if deep:
            bad, ex, stuck = deep_build(bymod)
            open(path, 'w').write(src)
            failed = sorted(t for t in closure_users(decls, bad) if t in allprops)
            fp = sorted(set().union(*(allprops[t] for t in failed)))
            miss = sorted(set(m['props']) - set(fp))
            verdict = ('stuck at ' + stuck if stuck else 'SURVIVED' if not bad and not ex else 'only examples failed' if not bad
                       else 'MISSED ' + ','.join(miss) if miss else 'killed')
            rec = {'name': m['name'], 'definition': m['defn'], 'file': 'lean/Verif/' + m['file'], 'edit': m['edit'],
                   'from': m['old'], 'to': m['new'], 'claim_broken': m['claim'], 'properties': m['props'],
                   'verdict': verdict + ' (deep)', 'proofs_rejected': sorted(bad), 'theorems_failed': failed, 'theorems_tightened': []}
            open(f'{TOP}/results.jsonl', 'a').write(json.dumps(rec) + '\n')
            if verdict == 'killed': open(f'{VERIF}/seeded/LOG.jsonl', 'a').write(json.dumps(rec) + '\n')
            print(m['name'], '|', verdict, '|', ' '.join(d[4:] for d in sorted(bad)), '| examples', ' '.join(sorted(ex)), '| props', ' '.join(fp), flush=True)
            continue
        r = sh('lake build', cwd=SCR, timeout=4000)
        out = r.stdout + r.stderr
        open(path, 'w').write(src)
        errs = set(re.findall(r'(?m)^error: (Verif/[\w/]+\.lean):(\d+):', out))
        bad = set(); ex = set(); model_err = False
        for f, ln in errs:
            ln = int(ln)
            mod = f[:-5].replace('/', '.')
            if f == 'Verif/' + m['file']:
                model_err = True
                if ln > at: ln -= delta
            hit = [n for a, b, n in bymod[mod] if a <= ln <= b]
            if hit: bad |= set(hit)
            else: ex.add(f'{f}:{ln}')
        users = closure_users(decls, bad)
        failed = sorted(t for t in users if t in allprops)
        fp = sorted(set().union(*(allprops[t] for t in failed)))
        direct = sorted(n for n in bad if re.match(r'Egg\.[\w.]*$', n))
        if r.returncode == 0: verdict = 'SURVIVED'
        elif not bad and ex: verdict = 'only examples failed'
        elif not set(m['props']) <= set(fp): verdict = 'MISSED ' + ','.join(sorted(set(m['props']) - set(fp)))
        else: verdict = 'killed'
        rec = {'name': m['name'], 'definition': m['defn'], 'file': 'lean/Verif/' + m['file'], 'edit': m['edit'],
               'from': m['old'], 'to': m['new'], 'claim_broken': m['claim'], 'properties': m['props'],
               'verdict': verdict,
               'proofs_rejected': direct, 'theorems_failed': failed, 'theorems_tightened': []}
        open(f'{TOP}/results.jsonl', 'a').write(json.dumps(rec) + '\n')
        if verdict == 'killed':
            open(f'{VERIF}/seeded/LOG.jsonl', 'a').write(json.dumps(rec) + '\n')
        print(m['name'], '|', verdict, '|', ' '.join(d[4:] for d in direct)[:150], '| examples', len(ex), '| props', ' '.join(fp), '| modelerr' if model_err else '', flush=True)

main()
