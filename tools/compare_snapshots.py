#!/usr/bin/env python3
"""Runs the executable Lean model on the repository's own snapshot inputs and compares with the recorded
outputs of the real program.  Evidence of fidelity only; no theorem depends on it.
Usage: python3 /verif/tools/compare_snapshots.py   (after `lake build` in /verif/lean)"""
import glob, subprocess, re, os, shutil, tempfile
here = os.path.dirname(os.path.abspath(__file__))
tmp = tempfile.mkdtemp()
def run(name, files):
    p = os.path.join(tmp, name + '.lean')
    shutil.copy(os.path.join(here, name + '.lean.txt'), p)
    out = subprocess.run(['lake', 'env', 'lean', '--run', p] + files, cwd=os.path.join(here, '../lean'),
                         capture_output=True, text=True)
    if out.returncode: print(out.stdout[:2000], out.stderr[:2000])
    return [x.split('\n', 1) for x in re.split(r'^=== ', out.stdout, flags=re.M)[1:]]
def errlist(s):
    el = re.findall(r'SyntaxError\(\n\s+"((?:[^"\\]|\\.)*)",\n\s+(\d+\.\.\d+),', s)
    return [a.replace('\\"', '"').replace("\\\\", "\\") + ' ' + b for a, b in el]
def snap(f): return open(f[:-4] + '.snap').read().split('---\n', 2)[2]
ok = n = 0
for f, body in run('snapshot_parser', sorted(glob.glob('/repo/crates/syntax/snapshots/parser/*/*.lua'))):
    n += 1
    tree, errs = snap(f).split('=============================\nErrors:\n=============================\n')
    if '--errors\n' not in body: print('PANIC', f); continue
    mt, me = body.split('--errors\n')
    if mt.strip() != tree.strip(): print('TREE DIFF', f)
    elif [x for x in me.split('\n') if x] != errlist(errs): print('ERR DIFF', f)
    else: ok += 1
print('parser snapshots identical:', ok, 'of', n)
ok = n = 0
for f, body in run('snapshot_lexer', sorted(glob.glob('/repo/crates/syntax/snapshots/lexer/*/*.lua'))):
    n += 1
    s = snap(f)
    toks = [a + ' ' + b for a, b in re.findall(r'Token \{\n\s+kind: (\w+),\n\s+len: (\d+),', s)]
    if '--errors\n' not in body: print('PANIC', f); continue
    mt, me = body.split('--errors\n')
    if mt.strip().split('\n') != (toks or ['']): print('TOKEN DIFF', f)
    elif [x for x in me.split('\n') if x] != errlist(s): print('ERR DIFF', f)
    else: ok += 1
print('lexer snapshots identical:', ok, 'of', n)
