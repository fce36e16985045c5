"""Transcribes the accessors of crates/syntax/src/ast/generated/nodes.rs to Lean (lean/Verif/Model/AstNodes.lean)."""
import re, textwrap
src = open('/repo/crates/syntax/src/ast/generated/nodes.rs').read().split('\n')
T = dict(re.findall(r"\[('?[^\s\]]+'?|'\['|'\]')\] => \{ \$ crate :: SyntaxKind :: (\w+) \}",
                    open('/repo/crates/parser/src/syntax_kind/generated.rs').read())[::-1])
def low(k): return k[0].lower() + k[1:]
def camel(s):
    p = s.split('_'); r = p[0] + ''.join(x.capitalize() for x in p[1:])
    return r + '_' if r == 'fun' else r
out, enums = [], []
i = 0
while i < len(src):
    l = src[i]
    m = re.match(r'pub enum (\w+) \{', l)
    if m:
        j = i + 1; ks = []
        while src[j] != '}':
            ks.append(re.match(r'\s+(\w+)\(', src[j]).group(1)); j += 1
        a = next(n for n, x in enumerate(src) if x.startswith(f'impl AstNode for {m.group(1)} {{'))
        b = next(n for n in range(a, len(src)) if 'fn cast' in src[n])
        body = ' '.join(src[a+1:b])
        assert re.findall(r'SyntaxKind::(\w+)', body.split('match kind')[1].split('=> true')[0]) == ks
        enums.append((m.group(1), a + 2, b, ks))
        i = j
    m = re.match(r'impl (\w+) \{$', l)
    if m:
        ty = m.group(1); j = i + 1
        while src[j] != '}':
            g = re.match(r'    pub fn (\w+)\(&self\) -> (.*) \{', src[j])
            assert g, src[j]
            call = src[j+1].strip()
            t = re.match(r'support::token\(&self.syntax, T!\[(.*)\]\)$', call)
            where = f'nodes.rs:{j+1}-{j+3}, `{ty}::{g.group(1)}`.'
            if t:
                d = f'Option Red := token .{low(T[t.group(1)])} r'
            else:
                k = re.match(r'support::(child|children)\(&self.syntax\)$', call).group(1)
                n = re.match(r'(?:Option|AstChildren)<(\w+)>$', g.group(2)).group(1)
                d = (f'Option Red := child Can.{low(n)} r' if k == 'child' else f'List Red := children Can.{low(n)} r')
            out.append((ty, g.group(1), where, d)); j += 3
        i = j
    i += 1
plain = [(re.match(r'impl AstNode for (\w+) \{', l).group(1), n + 1) for n, l in enumerate(src)
         if l.startswith('impl AstNode for') and 'kind == SyntaxKind::' in src[n+2]]
p = []
p.append('''import Verif.Model.Red
import Verif.Model.BindingPowers

/-
Model of crates/syntax/src/ast.rs (`support`) and of crates/syntax/src/ast/generated/nodes.rs: the typed accessors.
A typed node is the syntax node it wraps.  The accessors are transcribed by tools/gen_ast.py.
-/
namespace Verif.Ast

/-- ast.rs:81-83, `support::child`: the first child node that casts to the type. -/
def child (can : SyntaxKind → Bool) (r : Red) : Option Red := r.children.find? fun c => can c.kind

/-- ast.rs:85-87 and 70-76, `support::children`: the child nodes that cast to the type. -/
def children (can : SyntaxKind → Bool) (r : Red) : List Red := r.children.filter fun c => can c.kind

/-- ast.rs:89-91, `support::token`: the first child token of a kind. -/
def token (k : SyntaxKind) (r : Red) : Option Red := r.elems.find? fun e => !e.green.isNode && e.kind == k

/-! `can_cast` -/
namespace Can
''')
for n, line in plain:
    p.append(f'/-- nodes.rs:{line+1}-{line+3}, `{n}::can_cast`. -/\ndef {low(n)} (k : SyntaxKind) : Bool := k == .{low(n)}\n')
for n, a, b, ks in enums:
    p.append(f'/-- nodes.rs:{a}-{b}, `{n}::can_cast`. -/\ndef {low(n)} (k : SyntaxKind) : Bool :=\n' + textwrap.fill(
        f'[SyntaxKind.{low(ks[0])}, ' + ', '.join('.' + low(k) for k in ks[1:]) + '].contains k', 110,
        initial_indent='  ', subsequent_indent='    ') + '\n')
p.append('end Can\n')
cur = None
for ty, f, w, d in out:
    if ty != cur:
        if cur: p.append(f'end {cur}\n')
        p.append(f'namespace {ty}'); cur = ty
    p.append(f'/-- {w} -/\ndef {camel(f)} (r : Red) : {d}')
p.append(f'end {cur}\n\nend Verif.Ast')
open('/verif/lean/Verif/Model/AstNodes.lean', 'w').write('\n'.join(p) + '\n')
