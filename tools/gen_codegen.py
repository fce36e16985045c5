"""Transcribes xtask/assets/lua.ungram, xtask/assets/ast_src.toml, the macro T! of syntax_kind/generated.rs, and lists the
accessors and casts of ast/generated/nodes.rs and tokens.rs, to Lean (lean/Verif/Model/CodegenData.lean)."""
import re
def low(k): return k[0].lower() + k[1:]
# --- the grammar (the syntax of the crate `ungrammar`)
src = open('/repo/xtask/assets/lua.ungram').read()
src = re.sub(r'//.*', '', src)
toks = re.findall(r"'(?:[^'\\]|\\.)*'|[A-Za-z_]+|[=:|()*?]", src)
order, rules = [], {}
lines = {}
for n, l in enumerate(open('/repo/xtask/assets/lua.ungram').read().split('\n')):
    m = re.match(r'([A-Za-z]+)\s*=', l)
    if m: lines[m.group(1)] = n + 1
def intern(n):
    if n not in order: order.append(n)
pos = 0
def peek(k=0): return toks[pos+k] if pos+k < len(toks) else None
def is_name(t): return t is not None and re.match(r'[A-Za-z_]+$', t)
def q(s): return '"' + s.replace('\\', '\\\\').replace('"', '\\"') + '"'
def alt():
    global pos
    rs = [seq()]
    while peek() == '|':
        pos += 1; rs.append(seq())
    return rs[0] if len(rs) == 1 else '.alt [' + ', '.join(rs) + ']'
def seq():
    rs = []
    while True:
        r = atom()
        if r is None: break
        rs.append(r)
    return rs[0] if len(rs) == 1 else '.seq [' + ', '.join(rs) + ']'
def atom():
    global pos
    t = peek()
    if t is None or t in '|)=*?:': return None
    if is_name(t) and peek(1) == '=': return None
    if is_name(t) and peek(1) == ':':
        pos += 2
        return f'.labeled {q(t)} ({atom()})'
    if t == '(':
        pos += 1; r = alt(); assert peek() == ')'; pos += 1
    elif t[0] == "'":
        pos += 1; r = f'.token {q(t[1:-1])}'
    else:
        pos += 1; intern(t); r = f'.node {q(t)}'
    while peek() in ('*', '?'):
        r = f'.{"rep" if peek() == "*" else "opt"} ({r})'; pos += 1
    return r
while pos < len(toks):
    n = peek(); assert is_name(n) and peek(1) == '=', (n, peek(1))
    intern(n); pos += 2
    rules[n] = alt()
assert set(order) == set(rules)
# --- ast_src.toml
toml = open('/repo/xtask/assets/ast_src.toml').read()
def lst(k):
    return re.findall(r'"([^"]*)"', re.search(k + r' = \[(.*?)\]', toml, re.S).group(1))
punct = dict(re.findall(r'^"([^"]+)" = "(\w+)"', toml.split('[punct]')[1], re.M))
punct = sorted(punct.items(), key=lambda p: p[0].encode())
def wrap(items, ind=2, width=118):
    out, cur = [], ' ' * ind
    for k, it in enumerate(items):
        piece = it + (', ' if k + 1 < len(items) else '')
        if len(cur) + len(piece.rstrip()) > width:
            if cur.strip(): out.append(cur.rstrip())
            cur = ' ' * ind
        cur += piece
    if cur.strip() or not out: out.append(cur.rstrip())
    res = []
    for l in out:
        while len(l) > width:
            j = l.rfind(', ', 0, width) + 1
            res.append(l[:j]); l = ' ' * (ind + 2) + l[j+1:]
        res.append(l)
    return '\n'.join(res)
gen = open('/repo/crates/parser/src/syntax_kind/generated.rs').read()
tline = next(n for n, l in enumerate(gen.split('\n')) if l.startswith('macro_rules ! T')) + 1
arms = re.findall(r"\[('?[^\s\]]+'?|'\['|'\]')\] => \{ \$ crate :: SyntaxKind :: (\w+) \}", gen.split('\n')[tline-1])
ns = open('/repo/crates/syntax/src/ast/generated/nodes.rs').read()
nl = ns.split('\n')
structs = []
i = 0
while i < len(nl):
    m = re.match(r'impl (\w+) \{(\})?$', nl[i])
    if m:
        ms = []
        if not m.group(2):
            j = i + 1
            while nl[j] != '}':
                g = re.match(r'    pub fn (\w+)\(&self\) -> (\w+)', nl[j])
                if g: ms.append((g.group(1), g.group(2)))
                j += 1
        structs.append((m.group(1), ms))
    i += 1
def camel(s):
    p = s.split('_'); r = p[0] + ''.join(x.capitalize() for x in p[1:])
    return r + '_' if r == 'fun' else r
casts = re.findall(r'^impl AstNode for (\w+) \{', ns, re.M)
ts = open('/repo/crates/syntax/src/ast/generated/tokens.rs').read()
tokens = re.findall(r'impl AstToken for (\w+) \{', ts)
o = []
o.append('''import Verif.Model.Codegen
import Verif.Model.Ast

/-
The input of the code generator, and the checked-in files it is meant to have written.  Transcribed by tools/gen_codegen.py.
-/
namespace Verif.Codegen
''')
o.append('/-- xtask/assets/lua.ungram, in the order in which the crate `ungrammar` meets the names. -/\ndef luaGrammar : Grammar := [')
o.append(',\n'.join(f'  -- lua.ungram:{lines[n]}\n' + wrap([w for w in [f'({q(n)}, {rules[n]})']]) for n in order) + ']\n')
o.append('/-- xtask/assets/ast_src.toml; the entries of `[punct]` in the order of their keys, as in a `BTreeMap`. -/\ndef luaKinds : KindsSrc where')
o.append('  punct := [\n' + wrap([f'({q(a)}, {q(b)})' for a, b in punct], 4) + ']')
for k in ['keywords', 'literals', 'tokens', 'trivia']:
    o.append(f'  {k} := [\n' + wrap([q(x) for x in lst(k)], 4) + ']')
o.append(f'''
/-- crates/parser/src/syntax_kind/generated.rs:{tline}, the arms of the macro `T!`. -/
def checkedInT : List (String × String) := [
''' + wrap([f'({q(a)}, {q(b)})' for a, b in arms]) + ']\n')
o.append('/-- The structs of crates/syntax/src/ast/generated/nodes.rs with their methods (Model/AstNodes.lean). -/')
o.append('def checkedInStructs : List (String × List (String × (Red → Result))) := [')
def meth(t, m, r):
    f = f'Ast.{t}.{camel(m)} r'
    return f'({q(m)}, fun r => ' + (f'.one ({f})' if r == 'Option' else f'.many ({f})') + ')'
o.append(',\n'.join(f'  ({q(t)}, [' + ('\n' + wrap([meth(t, m, r) for m, r in ms], 4) if ms else '') + '])' for t, ms in structs) + ']\n')
o.append('/-- `can_cast` of the types of crates/syntax/src/ast/generated/nodes.rs. -/')
o.append('def checkedInCasts : List (String × (SyntaxKind → Bool)) := [')
o.append(wrap([f'({q(c)}, Ast.Can.{low(c)})' for c in casts]) + ']\n')
o.append('/-- `can_cast` of the types of crates/syntax/src/ast/generated/tokens.rs. -/')
o.append('def checkedInTokens : List (String × (SyntaxKind → Bool)) := [')
o.append(wrap([f'({q(c)}, Ast.CanToken.{low(c)})' for c in tokens]) + ']\n')
o.append('end Verif.Codegen')
open('/verif/lean/Verif/Model/CodegenData.lean', 'w').write('\n'.join(o) + '\n')
