"""Transcribes the enums of crates/syntax/src/ast/generated/nodes.rs to Lean (lean/Verif/Model/AstCast.lean)."""
import re
src = open('/repo/crates/syntax/src/ast/generated/nodes.rs').read().split('\n')
def low(k): return k[0].lower() + k[1:]
p = ['''import Verif.Model.AstNodes

/-
Model of the enums of crates/syntax/src/ast/generated/nodes.rs: their variants, `cast` and `syntax`.  A typed node is
the syntax node it wraps.  Transcribed by tools/gen_cast.py.
-/
namespace Verif.Ast

/-- `AstNode::cast` of the struct types, nodes.rs:706-1395, all of the form `if can_cast { Some } else { None }`. -/
def castPlain (can : SyntaxKind → Bool) (r : Red) : Option Red := if can r.kind then some r else none
''']
i = 0
enums = []
while i < len(src):
    m = re.match(r'pub enum (\w+) \{', src[i])
    if m:
        ty = m.group(1); j = i + 1; vs = []
        while src[j] != '}':
            g = re.match(r'\s+(\w+)\((\w+)\),$', src[j]); assert g and g.group(1) == g.group(2); vs.append(g.group(1)); j += 1
        p.append(f'/-- nodes.rs:{i+1}-{j+1}, `enum {ty}`. -/\ninductive {ty} where')
        p.append('\n'.join(f'  | {low(v)} (syntax_ : Red)' for v in vs) + '\n')
        enums.append((ty, vs)); i = j
    i += 1
for ty, vs in enums:
    a = next(n for n, x in enumerate(src) if x.startswith(f'impl AstNode for {ty} {{'))
    b = next(n for n in range(a, len(src)) if 'fn cast' in src[n])
    c = next(n for n in range(b, len(src)) if 'fn syntax' in src[n])
    e = next(n for n in range(c, len(src)) if src[n] == '}')
    body = ' '.join(x.strip() for x in src[b:c])
    arms = re.findall(r'SyntaxKind::(\w+) => (?:\{ )?(\w+)::(\w+)\((\w+) \{ syntax \}\)', body)
    assert len(arms) == len(vs), (ty, arms)
    assert '_ => return None' in body
    p.append(f'/-- nodes.rs:{b+1}-{c}, `{ty}::cast`. -/\ndef {ty}.cast (r : Red) : Option {ty} :=\n  match r.kind with')
    for k, t, v, s in arms:
        assert t == ty and v == s
        p.append(f'  | .{low(k)} => some (.{low(v)} r)')
    p.append('  | _ => none\n')
    sy = re.findall(r'(\w+)::(\w+)\(it\) => &it.syntax', ' '.join(src[c:e]))
    assert [v for _, v in sy] == vs
    p.append(f'/-- nodes.rs:{c+1}-{e}, `{ty}::syntax`. -/\ndef {ty}.syntax : {ty} → Red')
    p += [f'  | .{low(v)} r => r' for v in vs]
    p.append('')
p.append('end Verif.Ast')
open('/verif/lean/Verif/Model/AstCast.lean', 'w').write('\n'.join(p) + '\n')
