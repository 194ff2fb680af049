#!/usr/bin/env python3
"""Seeded-bug testing: apply each wrong edit of seeded/mutants_*.py to a scratch copy of the model, rebuild, and
record which theorems fail.  Usage: seed.py SCRATCH mutants.py [id ...]

A mutant: dict(id, file (under lean/Verif), defn, old, new, claim, props[, n]).  `old` must occur exactly once in the
text after `def <defn>` (or, with n, its n-th occurrence there is edited).
Theorems "failed": those of MANIFEST.json in whose proof Lean reports an error, or whose proof uses a declaration in
which it does (dependencies as in the unedited build)."""
import sys, json, re, os, subprocess, shutil, runpy
root = os.path.dirname(os.path.dirname(os.path.abspath(__file__)))
scratch = sys.argv[1]; muts = runpy.run_path(sys.argv[2])['M']; only = set(sys.argv[3:])
DEPS = r'''
import Lean
import Verif
open Lean
def mainX : CoreM Unit := do
  let env ← getEnv
  let isV (n : Name) : Bool := match env.getModuleIdxFor? n with
    | some i => (`Verif).isPrefixOf env.header.moduleNames[i.toNat]!
    | none => false
  for (n, ci) in env.constants.map₁.toList do
    if isV n then
      let mut deps : NameSet := {}
      for d in ci.type.getUsedConstants do if isV d then deps := deps.insert d
      if let some v := ci.value? (allowOpaque := true) then
        for d in v.getUsedConstants do if isV d then deps := deps.insert d
      IO.println s!"{n}\t{" ".intercalate (deps.toList.map toString)}"
#eval mainX
'''
lean = scratch + '/lean'
if not os.path.exists(lean):
    os.makedirs(scratch, exist_ok=True)
    shutil.copytree(root + '/lean', lean, symlinks=True)
subprocess.run(['rsync', '-a', '--delete', root + '/lean/Verif/', lean + '/Verif/'], check=False) if shutil.which('rsync') else \
    (shutil.rmtree(lean + '/Verif'), shutil.copytree(root + '/lean/Verif', lean + '/Verif'))
shutil.copy(root + '/lean/Verif.lean', lean + '/Verif.lean')
b = subprocess.run(['lake', 'build'], cwd=lean, capture_output=True, text=True)
assert b.returncode == 0, b.stdout[-2000:]
open(scratch + '/deps.lean', 'w').write(DEPS)
d = subprocess.run(['lake', 'env', 'lean', scratch + '/deps.lean'], cwd=lean, capture_output=True, text=True).stdout
deps = {}
for l in d.splitlines():
    if '\t' in l:
        n, ds = l.split('\t'); deps[n] = ds.split()
users = {}
for n, ds in deps.items():
    for x in ds: users.setdefault(x, set()).add(n)
claims = json.load(open(root + '/MANIFEST.json'))['claims']
thms = {t: c['property'] for c in claims for t in c['theorems']}

import glob
imports = {os.path.relpath(f, lean): {x.replace('.', '/') + '.lean' for x in re.findall(r'^import (Verif\S*)', open(f).read(), re.M)}
           for f in glob.glob(lean + '/Verif/*/*.lean')}
modof = {}
for f in glob.glob(lean + '/Verif/Props/*.lean'):
    src = open(f).read()
    for t in thms:
        if re.search(r'^theorem ' + re.escape(t.split('.')[-1]) + r'\b', src, re.M) and ('namespace ' + '.'.join(t.split('.')[:-1])) in src:
            modof[t] = os.path.relpath(f, lean)

def decl_at(path, line):
    """fully qualified name of the declaration around a line (by regex)"""
    ns, cur = [], None
    for k, l in enumerate(open(path), 1):
        if k > line: break
        m = re.match(r'namespace (\S+)', l)
        if m: ns.append(m.group(1)); cur = None
        m = re.match(r'end (\S+)', l)
        if m and ns and ns[-1] == m.group(1): ns.pop(); cur = None
        m = re.match(r'\s*(?:@\[[^\]]*\]\s*)*(?:private |protected |noncomputable )*(theorem|def|lemma|abbrev|structure|inductive|instance|example)\b\s*(\S*)', l)
        if m and (not l.startswith(' ') or m.group(1) != 'example'):
            nm = m.group(2).rstrip(':')
            cur = 'example:%s:%d' % (os.path.basename(path), k) if m.group(1) == 'example' or not nm else '.'.join(ns + [nm])
    return cur or 'top:%s:%d' % (os.path.basename(path), line)

def closure(names):
    seen, todo = set(), list(names)
    while todo:
        x = todo.pop()
        if x in seen: continue
        seen.add(x)
        todo += [u for u in users.get(x, ())]
        todo += [y for y in deps if y.startswith(x + '.') and y not in seen] if x in names else []
    return seen

def decl_line(p, line):
    """first line of the theorem around a line"""
    ls = open(p).read().split('\n'); a = line - 1
    while a > 0 and not re.match(r'(?:@\[[^\]]*\]\s*)*(?:private |protected )*(theorem|lemma|example|def|instance)\b', ls[a]): a -= 1
    return a + 1
HOLE = 'so' + 'rry'
def drop_proof(p, line):
    """replace the proof of the theorem (or example) around a line by a hole (in the scratch copy only)"""
    ls = open(p).read().split('\n')
    top = re.compile(r'(?:@\[[^\]]*\]\s*)*(?:private |protected )*(theorem|lemma|example)\b')
    nxt = re.compile(r'(?:@\[|/--|/-!|private |protected |theorem|lemma|example|def|abbrev|structure|inductive|instance|namespace|end|section|open|variable|noncomputable)')
    a = line - 1
    while a >= 0 and not top.match(ls[a]):
        if a < line - 1 and nxt.match(ls[a]) : return False
        a -= 1
    if a < 0: return False
    e = line
    while e < len(ls) and not nxt.match(ls[e]): e += 1
    t = '\n'.join(ls[a:e]); depth = 0
    for i, c in enumerate(t):
        if c in '([{⟨': depth += 1
        elif c in ')]}⟩': depth -= 1
        elif depth == 0 and t.startswith(':=', i):
            if t[i+2:].strip() in (HOLE, 'by ' + HOLE): return False
            ls[a:e] = (t[:i] + ':= ' + HOLE).split('\n') + ['']
            open(p, 'w').write('\n'.join(ls)); return True
    return False

for m in muts:
    if only and m['id'] not in only: continue
    path = lean + '/Verif/' + m['file']
    src = open(path).read()
    i = re.search(r'(?:def|structure|inductive|abbrev) ' + re.escape(m['defn']) + r'[\s:({\[]', src)
    assert i, m['id']
    j = i.start(); k = m.get('n', 1)
    pos = j
    for _ in range(k):
        pos = src.find(m['old'], pos + (1 if _ else 0))
        assert pos >= 0, (m['id'], 'old text not found')
    new = src[:pos] + m['new'] + src[pos + len(m['old']):]
    open(path, 'w').write(new)
    saved, bad, where, rc = {}, set(), set(), 0
    # the same wrong program in a proof's own restatement of the steps, so that the claims themselves are put to the test
    for af, ao, an in m.get('also', []):
        ap = lean + '/Verif/' + af; at = open(ap).read()
        assert at.count(ao) == 1, (m['id'], af, ao, at.count(ao))
        saved.setdefault(ap, at); open(ap, 'w').write(at.replace(ao, an))
    try:
        # when a failing lemma hides a claim's theorems (modules after it are not built), its proof is dropped and the build goes on
        for rnd in range(8):
            b = subprocess.run(['lake', 'build'], cwd=lean, capture_output=True, text=True, timeout=2400)
            out = b.stdout + b.stderr
            errs = re.findall(r'error: (?:\./)?(Verif/\S+?\.lean):(\d+):', out)
            decls = {(f, decl_at(lean + '/' + f, int(l))) for f, l in errs}
            bad |= {d for f, d in decls}; here = {f for f, l in errs}
            if rnd == 0: rc = b.returncode
            where |= here
            cl = closure(bad)
            blocked = set(here)      # modules that import a failing one
            while True:
                more = {f for f in imports if f not in blocked and imports[f] & blocked}
                if not more: break
                blocked |= more
            failed = sorted(t for t in thms if t in cl)
            props = sorted({thms[t] for t in failed})
            unreached = sorted(t for t in thms if t not in cl and modof[t] in blocked - here)
            missing = [p for p in m['props'] if p not in props]
            hidden = [p for p in missing if any(thms[t] == p for t in unreached)]
            if not hidden: break
            done = False
            for f in here:
                if '/Proof/' not in f and '/Props/' not in f: continue
                p = lean + '/' + f
                saved.setdefault(p, open(p).read())
                for l in sorted({decl_line(p, int(l)) for g, l in errs if g == f}, reverse=True):
                    done |= drop_proof(p, l)
            if not done: break
    finally:
        for p, t in saved.items(): open(p, 'w').write(t)
        open(path, 'w').write(src)
    bad = sorted(bad); where = sorted(where)
    status = 'SURVIVED' if rc == 0 else ('INVALID' if any('/Model/' in f or '/Spec/' in f for f in where) else
             ('UNCOVERED ' + ' '.join(missing) + (' (not reached: ' + ' '.join(hidden) + ')' if hidden else '') if missing else 'killed'))
    rec = dict(id=m['id'], definition=m['defn'] + ' (' + m['file'] + ')', edit='`%s` -> `%s`' % (m['old'], m['new']) + ''.join('; likewise in %s: `%s` -> `%s`' % a for a in m.get('also', [])), claim=m['claim'],
               breaks=m['props'], status=status, errors_in=bad[:12], theorems_failed=failed, theorems_tightened=m.get('tightened', []))
    open(scratch + '/out.jsonl', 'a').write(json.dumps(rec, ensure_ascii=False) + '\n')
    print(m['id'], status, '| errors in', bad[:4], '| props', ' '.join(props), flush=True)
