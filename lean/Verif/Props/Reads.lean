import Verif.Spec.Reads
import Verif.Props.Spelling
import Verif.Props.LexerLong
import Verif.Props.LexerWords
import Verif.Proof.Decide

/-
C82: the lexer follows the lexical rules of `Spec/Reads.lean`, all of them and no others.
-/
namespace Verif
open Lexer Lua Accept Spec

/-! ### splitting a text at the first place with a property -/

private theorem first_split (Q : Text → Text → Prop) (s : Text) : (∀ p q, s = p ++ q → ¬ Q p q) ∨
    ∃ p q, s = p ++ q ∧ Q p q ∧ ∀ p' q', s = p' ++ q' → Q p' q' → p.length ≤ p'.length := by
  suffices H : ∀ n, (∃ p q, s = p ++ q ∧ Q p q ∧ p.length ≤ n) →
      ∃ p q, s = p ++ q ∧ Q p q ∧ ∀ p' q', s = p' ++ q' → Q p' q' → p.length ≤ p'.length by
    by_cases h : ∃ p q, s = p ++ q ∧ Q p q
    · obtain ⟨p, q, h1, h2⟩ := h
      exact .inr (H p.length ⟨p, q, h1, h2, Nat.le_refl _⟩)
    · exact .inl fun p q h1 h2 => h ⟨p, q, h1, h2⟩
  intro n
  induction n with
  | zero =>
    rintro ⟨p, q, h1, h2, h3⟩
    exact ⟨p, q, h1, h2, fun p' q' _ _ => by omega⟩
  | succ n ih =>
    rintro ⟨p, q, h1, h2, h3⟩
    by_cases h : ∃ p q, s = p ++ q ∧ Q p q ∧ p.length ≤ n
    · exact ih h
    · refine ⟨p, q, h1, h2, fun p' q' h4 h5 => ?_⟩
      have : ¬ p'.length ≤ n := fun h6 => h ⟨p', q', h4, h5, h6⟩
      omega

private theorem getLast_append {a b : Text} (h : b ≠ []) : (a ++ b).getLast? = b.getLast? := getLast_append_ne h

/-! ### quoted strings -/

private theorem quotedBody_tail {d c : Char} {cs : Text} (hc : c = '\\' → cs.head? ≠ some d) (h : QuotedBody d (c :: cs)) :
    QuotedBody d cs := by
  refine ⟨fun x hx => h.1 x (by simp [hx]), fun p q e => ?_⟩
  have := h.2 (c :: p) q (by rw [e]; rfl)
  cases p with
  | nil =>
    simp at this e
    exact absurd (by simp [e]) (hc this)
  | cons x xs => simpa using this

private theorem stringForm_quoted {d : Char} (hd : d = '\'' ∨ d = '"') (tail : Text) : ∀ body, QuotedBody d body →
    (tail.head? = some d → body.getLast? ≠ some '\\') → stringForm d (body ++ tail) = stringForm d tail := by
  have e1 : d ≠ '\\' := by rcases hd with rfl | rfl <;> decide
  intro body
  generalize hn : body.length = n
  induction n using Nat.strongRecOn generalizing body with
  | ind n ih =>
    intro hb ht
    cases body with
    | nil => rfl
    | cons c cs =>
      have hc := hb.1 c (by simp)
      have hcd : c ≠ d := by
        rintro rfl
        have := hb.2 [] cs rfl
        simp at this
      by_cases hcb : c = '\\'
      · subst hcb
        cases cs with
        | nil =>
          cases tail with
          | nil =>
            rw [List.append_nil, stringForm.eq_def]
            simp [hcd, show ('\\' : Char) ≠ EOF_CHAR by decide, show ('\\' : Char) ≠ '\n' by decide]
          | cons x xs =>
            rw [List.singleton_append, stringForm_esc e1]
            rw [if_neg]
            intro e
            exact ht (by simp [e]) (by simp)
        | cons x xs =>
          simp only [List.cons_append]
          rw [stringForm_esc e1]
          by_cases hx : x = d
          · rw [if_pos hx]
            subst hx
            refine ih xs.length (by simp at hn; omega) xs rfl ?_ ?_
            · refine ⟨fun y hy => hb.1 y (by simp [hy]), fun p q e => ?_⟩
              have := hb.2 ('\\' :: x :: p) q (by rw [e]; rfl)
              cases p with
              | nil => simp at this; exact absurd this e1
              | cons y ys => simpa using this
            · intro h1 h2
              refine ht h1 ?_
              cases xs with
              | nil => simp at h2
              | cons y ys => simpa using h2
          · rw [if_neg hx, ← List.cons_append]
            refine ih (x :: xs).length (by simp at hn ⊢; omega) (x :: xs) rfl (quotedBody_tail (by simp [hx]) hb) ?_
            intro h1 h2
            exact ht h1 (by simpa using h2)
      · rw [List.cons_append, stringForm_plain (by simpa [EOF_CHAR] using hc.1) hc.2 hcd hcb]
        refine ih cs.length (by simp at hn; omega) cs rfl (quotedBody_tail (by simp [hcb]) hb) ?_
        intro h1 h2
        refine ht h1 ?_
        cases cs with
        | nil => simp at h2
        | cons y ys => simpa using h2

/-- Every text after a quote has a first place where the string ends. -/
private theorem quoted_split (d : Char) (s : Text) : ∃ body rest, s = body ++ rest ∧ QuotedBody d body ∧
    (rest = [] ∨ (∃ r, rest = d :: r ∧ body.getLast? ≠ some '\\') ∨ rest.head? = some '\x00' ∨ rest.head? = some '\n') := by
  rcases first_split (fun p q => (∃ r, q = d :: r ∧ p.getLast? ≠ some '\\') ∨ q.head? = some '\x00' ∨ q.head? = some '\n') s
    with h | ⟨p, q, h1, h2, h3⟩
  · refine ⟨s, [], by simp, ⟨fun c hc => ?_, fun p q e => ?_⟩, .inl rfl⟩
    · obtain ⟨a, b, rfl⟩ := List.append_of_mem hc
      have := h a (c :: b) rfl
      constructor
      · rintro rfl; exact this (.inr (.inl rfl))
      · rintro rfl; exact this (.inr (.inr rfl))
    · have := h p (d :: q) e
      exact Classical.byContradiction fun hn => this (.inl ⟨q, rfl, hn⟩)
  · refine ⟨p, q, h1, ⟨fun c hc => ?_, fun a b e => ?_⟩, .inr h2⟩
    · obtain ⟨a, b, rfl⟩ := List.append_of_mem hc
      have := h3 a (c :: (b ++ q)) (by rw [h1]; simp)
      constructor
      · rintro rfl
        have := this (.inr (.inl rfl))
        simp at this; omega
      · rintro rfl
        have := this (.inr (.inr rfl))
        simp at this; omega
    · refine Classical.byContradiction fun hn => ?_
      have := h3 a (d :: (b ++ q)) (by rw [h1, e]; simp) (.inl ⟨_, rfl, hn⟩)
      rw [e] at this; simp at this; omega

/-! ### long brackets -/

private theorem findClose_long (n : Nat) (rest : Text) (hr : rest.head? ≠ some '=') : ∀ body : Text, LongBody n body →
    body.getLast? ≠ some '\\' → findClose n (body ++ ']' :: (List.replicate n '=' ++ rest)) = some rest := by
  have hr' : (rest.head?.map (· == '=')).getD false = false := by
    cases rest with
    | nil => rfl
    | cons c cs => simp at hr; simp [hr]
  intro body
  generalize hn : body.length = m
  induction m using Nat.strongRecOn generalizing body with
  | ind m ih =>
    intro hp hl
    rcases skipClose_body body (']' :: (List.replicate n '=' ++ rest)) (Or.inr ⟨rfl, hl⟩) with h | ⟨p, q, h1, h2, h3⟩
    · rw [findClose_some _ h]
      have ht : (List.replicate n '=' ++ rest).takeWhile (· == '=') = List.replicate n '=' := by
        rw [(dropWhile_append_of_head hr').2]
        simp [List.takeWhile_replicate]
      have hd : (List.replicate n '=' ++ rest).dropWhile (· == '=') = rest := by
        rw [(dropWhile_append_of_head hr').1]
        simp [List.dropWhile_replicate]
      rw [ht, hd]; simp
    · rw [findClose_some _ h3]
      have hd := @dropWhile_append_of_head (· == '=') q (']' :: (List.replicate n '=' ++ rest)) (by rfl)
      rw [hd.1, hd.2]
      have hne : ¬ (q.takeWhile (· == '=')).length = n := by
        rcases hp p q h1 with h | h
        · exact absurd h h2
        · exact h
      rw [if_neg hne]
      have hsuf : q.dropWhile (· == '=') <:+ q := List.dropWhile_suffix _
      refine ih (q.dropWhile (· == '=')).length ?_ _ rfl (Plain.tail (p := p) (h1 ▸ hp)) ?_
      · have := hsuf.length_le
        rw [h1] at hn; simp at hn; omega
      · intro hlast
        apply hl
        obtain ⟨u, hu⟩ := hsuf
        have hne : q.dropWhile (· == '=') ≠ [] := by intro e; rw [e] at hlast; simp at hlast
        rw [h1, ← hu, show p ++ ']' :: (u ++ q.dropWhile (· == '=')) = (p ++ ']' :: u) ++ q.dropWhile (· == '=') by simp,
          getLast_append_ne hne]
        exact hlast

private theorem long_split (n : Nat) (s : Text) : LongBody n s ∨ ∃ body rest, s = body ++ ']' :: (List.replicate n '=' ++ rest) ∧
    LongBody n body ∧ body.getLast? ≠ some '\\' ∧ rest.head? ≠ some '=' := by
  rcases first_split (fun p q => ∃ r, q = ']' :: r ∧ p.getLast? ≠ some '\\' ∧ (r.takeWhile (· == '=')).length = n) s
    with h | ⟨p, q, h1, ⟨r, rfl, h2, h4⟩, h3⟩
  · left
    intro p q e
    have := h p (']' :: q) e
    by_cases hp : p.getLast? = some '\\'
    · exact .inl hp
    · exact .inr fun hq => this ⟨q, rfl, hp, hq⟩
  · right
    refine ⟨p, r.dropWhile (· == '='), ?_, ?_, h2, ?_⟩
    · rw [h1]
      congr 2
      conv => lhs; rw [← List.takeWhile_append_dropWhile (p := (· == '=')) (l := r)]
      congr 1
      refine List.eq_replicate_iff.2 ⟨h4, fun b hb => ?_⟩
      have := (List.all_eq_true.mp (List.all_takeWhile (p := (· == '=')) (l := r))) b hb
      simpa using this
    · intro a b e
      by_cases ha : a.getLast? = some '\\'
      · exact .inl ha
      · refine .inr fun hb => ?_
        have := h3 a (']' :: (b ++ ']' :: r)) (by rw [h1, e]; simp) ⟨_, rfl, ha, by
          rw [(dropWhile_append_of_head (by rfl)).2]; exact hb⟩
        rw [e] at this; simp at this; omega
    · intro e
      have := List.head?_dropWhile_not (· == '=') r
      rw [e] at this; simp at this


private theorem bracketForm_eq (n : Nat) {s : Text} (h : s.head? ≠ some '=') :
    bracketForm (List.replicate n '=' ++ s) = closeForm n s := by
  have h' : (s.head?.map (· == '=')).getD false = false := by
    cases s with
    | nil => rfl
    | cons c cs => simp at h; simp [h]
  unfold bracketForm
  rw [(dropWhile_append_of_head h').1, (dropWhile_append_of_head h').2]
  simp [List.takeWhile_replicate, List.dropWhile_replicate]

/-- The text after `[` and the equals signs. -/
private theorem opening_form {n : Nat} {o : Bool} {opening body : Text} (h : Opening n o opening body) (tail : Text)
    (hb : o = false → body ≠ [] ∨ tail = []) :
    lexForm '[' (List.replicate n '=' ++ opening ++ body ++ tail) =
      ((.str, (closeForm n (opening ++ body ++ tail)).1), (closeForm n (opening ++ body ++ tail)).2) ∧
    acceptSpec (· == '[') (opening ++ body ++ tail) = (o, body ++ tail) := by
  cases h with
  | ok =>
    refine ⟨?_, rfl⟩
    have := lexForm_long n (body ++ tail)
    simpa using this
  | missing _ h1 h2 h3 =>
    have e : (body ++ tail).head? = body.head? := by
      rcases hb rfl with hb | hb
      · cases body with
        | nil => exact absurd rfl hb
        | cons => rfl
      · simp [hb]
    rw [← e] at h2 h3
    simp only [List.append_nil, List.append_assoc, List.nil_append]
    generalize body ++ tail = s at *
    constructor
    · rw [← bracketForm_eq n h3]
      have hh : (List.replicate n '=' ++ s).head? = some '=' := by
        cases n with
        | zero => exact absurd rfl h1
        | succ n => rfl
      unfold lexForm
      simp only [show ('[' : Char) ≠ '=' by decide, show ('[' : Char) ≠ '~' by decide, if_false, if_true, hh, or_true]
    · cases s with
      | nil => rfl
      | cons c cs => simp at h2; simp [acceptSpec, h2]

/-! ### numbers -/

private theorem drop_digits {p : Char → Bool} {ds : Text} (h : ∀ d ∈ ds, p d = true) (q : Text) :
    (ds ++ q).dropWhile p <:+ q := by
  induction ds with
  | nil => exact List.dropWhile_suffix _
  | cons d ds ih =>
    rw [List.cons_append, List.dropWhile_cons, if_pos (h d (by simp))]
    exact ih fun x hx => h x (by simp [hx])

private theorem drop_head {p : Char → Bool} {ds q : Text} {c : Char} (h : ∀ d ∈ ds, p d = true) (hc : p c = false) :
    (ds ++ c :: q).dropWhile p = c :: q := by
  induction ds with
  | nil => simp [hc]
  | cons d ds ih =>
    rw [List.cons_append, List.dropWhile_cons, if_pos (h d (by simp))]
    exact ih fun x hx => h x (by simp [hx])

private theorem exp_suffix {e : Text} (h : e = [] ∨ ∃ c sign ds, e = c :: (sign ++ ds) ∧ (c = 'e' ∨ c = 'E') ∧
    (sign = [] ∨ sign = ['-']) ∧ ∀ d ∈ ds, d.isDigit = true) (q : Text) : skipExp (e ++ q) <:+ q := by
  rcases h with rfl | ⟨c, sign, ds, rfl, hc, hs, hd⟩
  · exact skipExp_suffix q
  · have hd' : ∀ d ∈ ds, isNumber d = true := fun d h => by rw [isNumber_eq]; exact hd d h
    simp only [List.cons_append, skipExp, hc, if_true]
    rcases hs with rfl | rfl
    · cases ds with
      | nil => exact (List.dropWhile_suffix _).trans (acceptSpec_suffix _ _)
      | cons d ds =>
        have : d ≠ '-' := by rintro rfl; have := hd '-' (by simp); exact absurd this (by decide)
        have e : skipOpt (· == '-') ([] ++ d :: ds ++ q) = (d :: ds) ++ q := by simp [skipOpt, acceptSpec, this]
        rw [e]
        exact drop_digits hd' q
    · exact drop_digits hd' q

private theorem number_suffix {w : Text} (h : Spelled .number w) (q : Text) : numberForm (w ++ q) <:+ q := by
  cases h with
  | fixed h =>
    have : ∀ p ∈ keywords ++ operators, p.2 ≠ .number := by decide
    exact absurd rfl (this _ h)
  | @hex ds h =>
    show (ds ++ q).dropWhile isHex <:+ q
    exact drop_digits (fun d hd => by rw [isHex_eq]; exact h d hd) q
  | @number d ds tail h1 h2 h3 =>
    have hd : ∀ x ∈ d :: ds, isNumber x = true := by
      intro x hx
      rw [isNumber_eq]
      rcases List.mem_cons.1 hx with rfl | hx
      · exact h1
      · exact h2 x hx
    cases h3 with
    | @mk frac e hf he =>
      have key : skipExp (skipFrac (((d :: ds) ++ (frac ++ e ++ q)).dropWhile isNumber)) <:+ q := by
        rcases hf with rfl | ⟨fs, rfl, hfs⟩
        · rcases he with rfl | ⟨c, sign, es, rfl, hc, hs⟩
          · exact (skipExp_suffix _).trans ((skipFrac_suffix _).trans (drop_digits hd q))
          · have hc1 : isNumber c = false := by rcases hc with rfl | rfl <;> decide
            have hc2 : c ≠ '.' := by rcases hc with rfl | rfl <;> decide
            simp only [List.nil_append, List.cons_append]
            rw [← List.cons_append, drop_head hd hc1]
            simp only [skipFrac, hc2, if_false]
            exact exp_suffix (.inr ⟨c, sign, es, rfl, hc, hs⟩) q
        · have hfs' : ∀ x ∈ fs, isNumber x = true := fun x hx => by rw [isNumber_eq]; exact hfs x hx
          have e0 : ((d :: ds) ++ ('.' :: fs ++ e ++ q)).dropWhile isNumber = '.' :: (fs ++ e ++ q) := by
            have := drop_head (q := fs ++ e ++ q) (c := '.') hd (by decide)
            simpa using this
          rw [e0]
          simp only [skipFrac, if_true]
          rcases he with rfl | ⟨c, sign, es, rfl, hc, hs⟩
          · rw [List.append_nil]
            exact (skipExp_suffix _).trans (drop_digits hfs' q)
          · have hc1 : isNumber c = false := by rcases hc with rfl | rfl <;> decide
            have e1 : (fs ++ (c :: (sign ++ es)) ++ q).dropWhile isNumber = (c :: (sign ++ es)) ++ q := by
              have := drop_head (q := sign ++ es ++ q) (c := c) hfs' hc1
              simpa using this
            rw [e1]
            exact exp_suffix (.inr ⟨c, sign, es, rfl, hc, hs⟩) q
      have e2 : d :: (ds ++ (frac ++ e)) ++ q = (d :: ds) ++ (frac ++ e ++ q) := by simp
      rw [e2]
      unfold numberForm
      split
      · rename_i cs e3
        have hx : ¬ isNumber 'x' = true := by decide
        cases ds with
        | cons y ys =>
          simp at e3
          exact absurd (e3.2.1 ▸ hd y (by simp)) hx
        | nil =>
          rcases hf with rfl | ⟨fs, rfl, hfs⟩
          · rcases he with rfl | ⟨c, sign, es, rfl, hc, hs⟩
            · simp at e3
              rw [e3.2]
              exact (List.dropWhile_suffix _).trans (List.suffix_cons _ _)
            · simp at e3
              rw [e3.2.1] at hc
              exact absurd hc (by decide)
          · simp at e3
      · exact key

/-! ### the rules are followed -/

private def Gives (w : Text) (k : SyntaxKind) (e : Option String) (rest : Text) : Prop :=
  firstToken (w ++ rest) = .ok (some (⟨k, w.len⟩, e.map fun m => ⟨m, ⟨0, w.len⟩⟩))

private theorem gives {c : Char} {v rest : Text} {k : SyntaxKind} {e : Option String}
    (h : lexForm c (v ++ rest) = ((k, e), rest)) : Gives (c :: v) k e rest :=
  firstToken_of_form (w := c :: v) h rfl

private theorem head_cons {s : Text} {P : Char → Prop} (h : ∀ c, s.head? = some c → P c) : ∀ x xs, s = x :: xs → P x := by
  rintro x xs rfl; exact h x rfl

private theorem lexForm_number {c : Char} (hc : isNumber c = true) (cs : Text) :
    lexForm c cs = ((.number, none), numberForm (c :: cs)) := by
  have hsp := special_chars c (by simp [hc])
  rw [lexForm_last hsp.1 hsp.2, if_pos hc, if_neg]
  intro hi
  rw [isIdentStart_eq] at hi
  rw [isNumber_eq] at hc
  simp [nameStart, Char.isAlpha, Char.isUpper, Char.isLower, Char.isDigit, UInt32.le_iff_toNat_le] at hi hc
  rcases hi with (hi | hi) | rfl
  · have h1 : (65 : UInt32).toNat = 65 := rfl
    have h2 : (57 : UInt32).toNat = 57 := rfl
    omega
  · have h1 : (97 : UInt32).toNat = 97 := rfl
    have h2 : (57 : UInt32).toNat = 57 := rfl
    omega
  · simp at hc

private theorem gives_number {w rest : Text} (h1 : Spelled .number w)
    (h2 : ∀ p q, rest = p ++ q → p ≠ [] → ¬ Spelled .number (w ++ p)) : Gives w .number none rest := by
  obtain ⟨p, hp⟩ := number_suffix h1 rest
  obtain ⟨c, v, rfl, hc⟩ : ∃ c v, w = c :: v ∧ isNumber c = true := by
    cases h1 with
    | fixed h =>
      have : ∀ p ∈ keywords ++ operators, p.2 ≠ .number := by decide
      exact absurd rfl (this _ h)
    | hex => exact ⟨_, _, rfl, by decide⟩
    | number h => exact ⟨_, _, rfl, by rw [isNumber_eq]; exact h⟩
  have hf : lexForm c (v ++ rest) = ((.number, none), numberForm (c :: (v ++ rest))) := lexForm_number hc _
  have hp' : p = [] := by
    refine Classical.byContradiction fun hne => h2 p (numberForm (c :: (v ++ rest))) hp.symm hne ?_
    have e : c :: (v ++ rest) = (c :: (v ++ p)) ++ numberForm (c :: (v ++ rest)) := by
      simp only [List.cons_append, List.append_assoc]
      rw [show p ++ numberForm (c :: (v ++ rest)) = rest from hp]
    rw [List.cons_append, List.cons.injEq] at e
    have e := e.2
    rw [e] at hf
    obtain ⟨err, h3, h4⟩ := lexForm_trunc c (v ++ p) (numberForm (c :: (v ++ rest))) (by rw [hf, ← e])
    rw [hf] at h3 h4
    have h5 := lexForm_spelled _ _ _ _ h3
    rw [if_pos (by simpa using h4)] at h5
    exact h5
  subst hp'
  simp only [List.nil_append] at hp
  rw [show (c :: v) ++ rest = c :: (v ++ rest) from rfl] at hp
  rw [hp] at hf
  exact gives hf


private theorem gives_operator {s : String} {k : SyntaxKind} {rest : Text} (h : (s, k) ∈ operators)
    (h1 : ∀ p ∈ operators, p.1.toList <+: s.toList ++ rest → p.1.toList.length ≤ s.toList.length)
    (h2 : s = "-" → rest.head? ≠ some '-') (h3 : s = "[" → rest.head? ≠ some '[' ∧ rest.head? ≠ some '=') :
    Gives s.toList k none rest := by
  have hd : ∀ p ∈ operators, (p.1.toList.head? = some '-' → p.1 = "-") ∧ (p.1.toList.head? = some '[' → p.1 = "[") ∧
      p.1.toList ≠ [] := by decide
  have hs := hd _ h
  simp only at hs
  have two : ∀ {a b : Char} {x : String}, [a, b] <+: s.toList ++ rest → (s.toList.head? = some a → s = x) →
      x.toList = [a] → rest.head? = some b := by
    intro a b x hp hx hxa
    have : s.toList.head? = some a := by
      cases hsl : s.toList with
      | nil => exact absurd hsl hs.2.2
      | cons c cs =>
        rw [hsl] at hp
        obtain ⟨t, ht⟩ := hp
        simp at ht
        simp [ht.1]
    rw [hx this, hxa] at hp
    obtain ⟨t, ht⟩ := hp
    simp at ht
    rw [← ht]; rfl
  refine C18_longest_match s k h rest h1 ?_ ⟨?_, ?_⟩
  · intro hp
    have e := two hp hs.1 rfl
    refine h2 (hs.1 ?_) e
    obtain ⟨t, ht⟩ := hp
    cases hsl : s.toList with
    | nil => exact absurd hsl hs.2.2
    | cons c cs => rw [hsl] at ht; simp at ht; rw [List.head?_cons, ← ht.1]
  all_goals
    intro hp
    have e := two hp hs.2.1 rfl
    have hb : s = "[" := by
      refine hs.2.1 ?_
      obtain ⟨t, ht⟩ := hp
      cases hsl : s.toList with
      | nil => exact absurd hsl hs.2.2
      | cons c cs => rw [hsl] at ht; simp at ht; rw [List.head?_cons, ← ht.1]
  · exact (h3 hb).1 e
  · exact (h3 hb).2 e

private theorem drop_line {line rest : Text} (h : '\n' ∉ line) (hr : rest = [] ∨ rest.head? = some '\n') :
    (line ++ rest).dropWhile (fun c => !(c == '\n')) = rest := by
  induction line with
  | nil =>
    cases rest with
    | nil => rfl
    | cons c cs => simp at hr; simp [hr]
  | cons c cs ih =>
    simp at h
    rw [List.cons_append, List.dropWhile_cons, if_pos (by simp; exact fun e => h.1 e.symm)]
    exact ih h.2

private theorem acceptSpec_ne {c : Char} {s : Text} (h : s.head? ≠ some c) : acceptSpec (· == c) s = (false, s) := by
  cases s with
  | nil => rfl
  | cons x xs => simp at h; simp [acceptSpec, h]

private theorem lexForm_quote {d : Char} (hd : d = '\'' ∨ d = '"') (s : Text) :
    lexForm d s = ((.str, (stringForm d s).1), (stringForm d s).2) := by
  rcases hd with rfl | rfl <;> rfl

private theorem reads_gives {w rest : Text} {k : SyntaxKind} {e : Option String} (h : Reads w k e rest) :
    Gives w k e rest := by
  cases h with
  | @keyword s k rest h1 h2 =>
    have hd : ∀ p ∈ keywords, (∃ c ∈ p.1.toList.head?, nameStart c = true) ∧ (∀ x ∈ p.1.toList, nameChar x = true) ∧
        wordKind p.1.toList = p.2 := by decide
    have hs := hd _ h1
    simp only at hs
    cases hsl : s.toList with
    | nil => rw [hsl] at hs; simp at hs
    | cons c cs =>
      rw [hsl] at hs
      have := C17_words c cs rest (by simpa using hs.1) (fun x hx => hs.2.1 x (by simp [hx])) (head_cons h2)
      rw [hs.2.2] at this
      exact this
  | @name c v rest h1 h2 h3 h4 =>
    have := C17_words c v rest h1 h2 (head_cons h4)
    have hw : wordKind (c :: v) = .ident := by
      unfold wordKind
      rw [List.find?_eq_none.2 (fun p hp => by simpa using h3 p hp)]
      rfl
    rw [hw] at this
    exact this
  | space h1 h2 h3 => exact C19_whitespace_run _ _ h1 h2 (head_cons h3)
  | operator h1 h2 h3 h4 => exact gives_operator h1 h2 h3 h4
  | tilde h =>
    refine gives (v := []) ?_
    show two '=' .notEq .unknown rest = _
    cases rest with
    | nil => rfl
    | cons x xs => simp at h; simp [two, h]
  | number h1 h2 => exact gives_number h1 h2
  | @quoted d body rest hd hb hl =>
    refine gives (v := body ++ [d]) ?_
    have hc : lexForm d (body ++ [d] ++ rest) = _ := lexForm_quote hd _
    have e : stringForm d (body ++ [d] ++ rest) = (none, rest) := by
      rw [List.append_assoc, stringForm_quoted hd _ body hb (fun _ => hl), List.singleton_append, stringForm.eq_def]
      have e1 : d ≠ EOF_CHAR := by rcases hd with rfl | rfl <;> decide
      have e2 : d ≠ '\n' := by rcases hd with rfl | rfl <;> decide
      simp [e1, e2]
    rw [hc, e]
  | @quotedEnd d body rest hd hb hr =>
    refine gives (v := body) ?_
    have hc : lexForm d (body ++ rest) = _ := lexForm_quote hd _
    have e : stringForm d (body ++ rest) = (some (closingMsg d), rest) := by
      rw [stringForm_quoted hd _ body hb]
      · rcases hr with rfl | hr
        · rfl
        · cases rest with
          | nil => simp at hr
          | cons x xs => simp at hr; subst hr; rw [stringForm.eq_def]; simp [EOF_CHAR]
      · intro h
        rcases hr with rfl | hr
        · simp at h
        · rw [hr] at h; simp at h; rw [← h] at hd; simp at hd
    rw [hc, e]
    rfl
  | @quotedLine d body rest hd hb hr =>
    refine gives (v := body) ?_
    have hc : lexForm d (body ++ rest) = _ := lexForm_quote hd _
    have e : stringForm d (body ++ rest) = (some "Unexpected newline in string", rest) := by
      rw [stringForm_quoted hd _ body hb]
      · cases rest with
        | nil => simp at hr
        | cons x xs => simp at hr; subst hr; rw [stringForm.eq_def]; simp [EOF_CHAR]
      · intro h
        rw [hr] at h; simp at h; rw [← h] at hd; simp at hd
    rw [hc, e]
  | @long n body rest hb hl => exact C15_long_string_partial n body rest hb hl
  | @longBad n o c opening body closing rest ho hb hl hc hoc =>
    refine gives ?_
    have h1 := opening_form (tail := List.replicate n '=' ++ closing ++ rest) ho (by simp)
    have hcl : acceptSpec (· == ']') (closing ++ rest) = (c, rest) ∧ (closing ++ rest).head? ≠ some '=' := by
      rcases hc with ⟨rfl, rfl⟩ | ⟨rfl, rfl, h3, h4⟩
      · exact ⟨rfl, by simp⟩
      · exact ⟨acceptSpec_ne h4, h3⟩
    have e : closeForm n (opening ++ (body ++ [']']) ++ (List.replicate n '=' ++ closing ++ rest)) =
        (some "Invalid bracket notation", rest) := by
      have hf := findClose_long n (closing ++ rest) hcl.2 body hb hl
      simp only [closeForm, h1.2]
      rw [show body ++ [']'] ++ (List.replicate n '=' ++ closing ++ rest) =
        body ++ ']' :: (List.replicate n '=' ++ (closing ++ rest)) by simp, hf]
      simp only [hcl.1, hoc]
      rfl
    have h2 := h1.1
    rw [e] at h2
    rw [← h2]
    congr 1
    simp
  | @longEnd n o opening body ho hb =>
    refine gives ?_
    have h1 := opening_form (tail := []) ho (by simp)
    have e : closeForm n (opening ++ body ++ []) = (some "Could not find bracket string close", []) := by
      simp only [closeForm, h1.2]
      rw [List.append_nil, findClose_none_of_plain n body hb]
    rw [h1.1, e]
  | @lineComment v rest h1 h2 h3 =>
    have hh : ∀ t, v ++ rest ≠ '[' :: '[' :: t := by
      intro t ht
      match v, h2, ht with
      | [], _, ht => rw [List.nil_append] at ht; rw [ht] at h3; simp at h3
      | [a], _, ht =>
        simp at ht
        rw [ht.2] at h3; simp at h3
      | a :: b :: v, h2, ht => simp at ht; exact h2 v (by rw [ht.1, ht.2.1])
    have := C16_line_comment (v ++ rest) hh
    have hfun : (fun c : Char => !(c == '\n')) = (· != '\n') := rfl
    have hdrop := drop_line h1 h3
    rw [hfun] at hdrop
    have htake : (v ++ rest).takeWhile (· != '\n') = v := by
      have h4 := List.takeWhile_append_dropWhile (p := (· != '\n')) (l := v ++ rest)
      rw [hdrop] at h4
      exact List.append_cancel_right h4
    rw [htake] at this
    exact this
  | @blockComment body closing line rest hb hl hc h1 h2 =>
    refine gives (c := '-') ?_
    have hcl : ∃ o, acceptSpec (· == ']') (closing ++ (line ++ rest)) = (o, line ++ rest) ∧
        (closing ++ (line ++ rest)).head? ≠ some '=' := by
      rcases hc with rfl | ⟨rfl, h3, h4⟩
      · exact ⟨true, rfl, by simp⟩
      · exact ⟨false, acceptSpec_ne h4, h3⟩
    obtain ⟨o, ho, hne⟩ := hcl
    have hf := findClose_long 0 (closing ++ (line ++ rest)) hne body hb hl
    have e : (bracketForm ('[' :: (body ++ ']' :: (closing ++ (line ++ rest))))).2 = line ++ rest := by
      have := bracketForm_open 0 (body ++ ']' :: (closing ++ (line ++ rest)))
      simp only [List.replicate_zero, List.nil_append] at this hf
      rw [this]
      simp only [closeForm, show ∀ t, acceptSpec (· == '[') ('[' :: t) = (true, t) from fun _ => rfl]
      rw [hf]
      simp only [ho]
    show ((SyntaxKind.comment, none), commentForm ('[' :: '[' :: (body ++ ']' :: (closing ++ line) ++ rest))) = _
    have e2 : body ++ ']' :: (closing ++ line) ++ rest = body ++ ']' :: (closing ++ (line ++ rest)) := by simp
    simp only [commentForm]
    rw [e2, e, drop_line h1 h2]
  | @blockCommentEnd body hb =>
    refine gives (c := '-') ?_
    have e : (bracketForm ('[' :: (body ++ []))).2 = [] := by
      have := bracketForm_open 0 (body ++ [])
      simp only [List.replicate_zero, List.nil_append] at this
      rw [this, List.append_nil, closeForm_none 0 body hb]
    show ((SyntaxKind.comment, none), commentForm ('[' :: '[' :: (body ++ []))) = _
    simp only [commentForm]
    rw [e]; rfl
  | @other c rest h1 h2 h3 h4 h5 =>
    refine gives (v := []) ?_
    have h6 : c ∉ ['=', '~', '[', '.', ':', '>', '<', '-', '\'', '"'] := by
      intro hm
      have : ∀ x ∈ ['=', '~', '[', '.', ':', '>', '<', '-', '\'', '"'], x ∈ ['~', '\'', '"'] ∨
          ∃ p ∈ operators, p.1.toList = [x] := by decide
      rcases this c hm with h | ⟨p, hp, he⟩
      · exact h5 h
      · exact h4 p hp he
    have h7 : singleKind c = none := by
      cases hs : singleKind c with
      | none => rfl
      | some k =>
        have := singleKind_mem hs
        have hall : ∀ x ∈ [('(', SyntaxKind.lParen), (')', .rParen), ('{', .lBrace), ('}', .rBrace), (']', .rBracket),
          (',', .comma), (';', .semicolon), ('#', .hash), ('+', .plus), ('*', .asterisk), ('/', .slash),
          ('%', .modulo), ('^', .caret), ('!', .bang)], ∃ p ∈ operators, p.1.toList = [x.1] := by decide
        obtain ⟨p, hp, he⟩ := hall _ this
        exact absurd he (h4 p hp)
    rw [lexForm_last h6 h7, isIdentStart_eq, isNumber_eq, h1, h2]
    have : ¬ isWhitespace c = true := fun h => h3 ((isWhitespace_iff c).1 h)
    simp [this]

/-! ### some rule applies -/

/-- What can follow an operator to make a longer one. -/
private def nexts (s : String) : List Char :=
  operators.filterMap fun p => if s.toList <+: p.1.toList then (p.1.toList.drop s.toList.length).head? else none

private theorem reads_op {s : String} {k : SyntaxKind} {rest : Text} (h : (s, k) ∈ operators)
    (h1 : ∀ x ∈ nexts s, rest.head? ≠ some x) (h2 : s = "-" → rest.head? ≠ some '-')
    (h3 : s = "[" → rest.head? ≠ some '[' ∧ rest.head? ≠ some '=') : Reads s.toList k none rest := by
  refine .operator h (fun p hp hpre => ?_) h2 h3
  refine Classical.byContradiction fun hlt => ?_
  obtain ⟨t, ht⟩ : s.toList <+: p.1.toList := by
    refine List.prefix_of_prefix_length_le (List.prefix_append s.toList rest) hpre (by omega)
  cases t with
  | nil => rw [← ht] at hlt; simp at hlt
  | cons x xs =>
    refine h1 x ?_ ?_
    · refine List.mem_filterMap.2 ⟨p, hp, ?_⟩
      rw [if_pos ⟨_, ht⟩, ← ht]
      simp
    · rw [← ht] at hpre
      obtain ⟨u, hu⟩ := hpre
      rw [List.append_assoc] at hu
      have := List.append_cancel_left hu
      rw [← this]; rfl

private def Total (s : Text) : Prop := ∃ w k e rest, s = w ++ rest ∧ Reads w k e rest

private theorem total_op {s : String} {k : SyntaxKind} {rest : Text} (h : (s, k) ∈ operators)
    (h1 : ∀ x ∈ nexts s, rest.head? ≠ some x) (h2 : s = "-" → rest.head? ≠ some '-')
    (h3 : s = "[" → rest.head? ≠ some '[' ∧ rest.head? ≠ some '=') : Total (s.toList ++ rest) :=
  ⟨_, _, _, _, rfl, reads_op h h1 h2 h3⟩

/-- One-character operators that can be continued to a two-character one. -/
private theorem total_two (a b : Char) {k1 k2 : SyntaxKind} (s t : String) (hs : s.toList = [a]) (ht : t.toList = [a, b])
    (h1 : (s, k1) ∈ operators) (h2 : (t, k2) ∈ operators) (n1 : ∀ x ∈ nexts s, x = b) (n2 : nexts t = [])
    (o1 : s ≠ "-" ∧ s ≠ "[") (o2 : t ≠ "-" ∧ t ≠ "[") (cs : Text) : Total (a :: cs) := by
  by_cases h : cs.head? = some b
  · cases cs with
    | nil => simp at h
    | cons y ys =>
      simp at h
      subst h
      have := total_op (rest := ys) h2 (by rw [n2]; simp) (fun e => absurd e o2.1) (fun e => absurd e o2.2)
      rw [ht] at this
      exact this
  · have := total_op (rest := cs) h1 (fun x hx => by rw [n1 x hx]; exact h) (fun e => absurd e o1.1) (fun e => absurd e o1.2)
    rw [hs] at this
    exact this

private theorem total_long (n : Nat) (o : Bool) (opening s : Text) (ho : ∀ p q, p ++ q = s → p ≠ [] ∨ q = [] → Opening n o opening p) :
    Total ('[' :: (List.replicate n '=' ++ opening ++ s)) := by
  rcases long_split n s with h | ⟨body, rest, h1, h2, h3, h4⟩
  · exact ⟨_, _, _, [], (List.append_nil _).symm, .longEnd (ho s [] (by simp) (.inr rfl)) h⟩
  · have ho' := ho (body ++ [']']) (List.replicate n '=' ++ rest) (by rw [h1]; simp) (.inl (by simp))
    by_cases hr : rest.head? = some ']'
    · cases rest with
      | nil => simp at hr
      | cons y ys =>
        simp at hr
        subst hr
        cases o with
        | true =>
          cases ho' with
          | ok =>
            refine ⟨_, _, _, ys, ?_, .long h2 h3⟩
            rw [h1]; simp [longOpen, longClose]
        | false =>
          refine ⟨_, _, _, ys, ?_, .longBad ho' h2 h3 (.inl ⟨rfl, rfl⟩) rfl⟩
          rw [h1]; simp
    · refine ⟨_, _, _, rest, ?_, .longBad (c := false) ho' h2 h3 (.inr ⟨rfl, rfl, h4, hr⟩) (by simp)⟩
      rw [h1]; simp

private theorem line_split (s : Text) : ∃ line rest, s = line ++ rest ∧ '\n' ∉ line ∧ (rest = [] ∨ rest.head? = some '\n') := by
  refine ⟨s.takeWhile (· != '\n'), s.dropWhile (· != '\n'), List.takeWhile_append_dropWhile.symm, ?_, ?_⟩
  · intro h
    have := (List.all_eq_true.mp (List.all_takeWhile (p := (· != '\n')) (l := s))) _ h
    simp at this
  · have := List.head?_dropWhile_not (· != '\n') s
    cases h : s.dropWhile (· != '\n') with
    | nil => exact .inl rfl
    | cons c cs => rw [h] at this; simp at this; exact .inr (by simp [this])

private theorem total_cons (c : Char) (cs : Text) : Total (c :: cs) := by
  refine lexForm_cases (P := fun c cs _ => Total (c :: cs)) ?_ ?_ ?_ ?_ ?_ ?_ ?_ ?_ ?_ ?_ ?_ ?_ ?_ ?_ ?_ ?_ ?_ c cs
  · exact total_two (k1 := .eq) (k2 := .eqEq) '=' '=' "=" "==" rfl rfl (by decide) (by decide) (by decide) (by decide) (by decide) (by decide)
  · intro cs
    by_cases h : cs.head? = some '='
    · cases cs with
      | nil => simp at h
      | cons y ys =>
        simp at h
        subst h
        exact total_op (s := "~=") (rest := ys) (k := .notEq) (by decide) (by rw [show nexts "~=" = [] by decide]; simp)
          (fun h => absurd h (by decide)) (fun h => absurd h (by decide))
    · exact ⟨_, _, _, cs, rfl, .tilde h⟩
  · intro c cs hc
    rcases hc with rfl | rfl
    · exact total_long 0 true ['['] cs fun p q _ _ => .ok p
    · have e : '=' :: cs = List.replicate (('=' :: cs).takeWhile (· == '=')).length '=' ++ ('=' :: cs).dropWhile (· == '=') := by
        conv => lhs; rw [← List.takeWhile_append_dropWhile (p := (· == '=')) (l := '=' :: cs)]
        congr 1
        refine List.eq_replicate_iff.2 ⟨rfl, fun b hb => ?_⟩
        have := (List.all_eq_true.mp (List.all_takeWhile (p := (· == '=')) (l := '=' :: cs))) b hb
        simpa using this
      have hn : (('=' :: cs).takeWhile (· == '=')).length ≠ 0 := by simp
      have hh := List.head?_dropWhile_not (· == '=') ('=' :: cs)
      rw [e]
      generalize (('=' :: cs).takeWhile (· == '=')).length = n at *
      generalize ('=' :: cs).dropWhile (· == '=') = s at *
      by_cases hs : s.head? = some '['
      · cases s with
        | nil => simp at hs
        | cons y ys =>
          simp at hs
          subst hs
          have := total_long n true ['['] ys fun p q _ _ => .ok p
          simpa using this
      · have := total_long n false [] s fun p q hpq hne => by
          have hp : p.head? = s.head? := by
            rcases hne with hne | rfl
            · cases p with
              | nil => exact absurd rfl hne
              | cons => rw [← hpq]; rfl
            · rw [← hpq]; simp
          refine .missing p hn (by rw [hp]; exact hs) ?_
          rw [hp]
          intro e
          rw [e] at hh; simp at hh
        simpa using this
  · intro cs h1 h2
    exact total_op (s := "[") (k := .lBracket) (by decide) (by rw [show nexts "[" = [] by decide]; simp) (fun h => absurd h (by decide)) (fun _ => ⟨h1, h2⟩)
  · intro cs
    by_cases h : cs.head? = some '.'
    · cases cs with
      | nil => simp at h
      | cons y ys =>
        simp at h
        subst h
        exact total_op (s := "...") (k := .tripleDot) (rest := ys) (by decide) (by rw [show nexts "..." = [] by decide]; simp)
          (fun h => absurd h (by decide)) (fun h => absurd h (by decide))
    · exact total_op (s := "..") (k := .doubleDot) (rest := cs) (by decide)
        (by rw [show nexts ".." = ['.'] by decide]; simpa using h) (fun h => absurd h (by decide)) (fun h => absurd h (by decide))
  · intro cs h
    exact total_op (s := ".") (k := .dot) (rest := cs) (by decide)
        (by rw [show nexts "." = ['.', '.'] by decide]; simpa using h) (fun h => absurd h (by decide)) (fun h => absurd h (by decide))
  · exact total_two (k1 := .colon) (k2 := .doubleColon) ':' ':' ":" "::" rfl rfl (by decide) (by decide) (by decide) (by decide) (by decide) (by decide)
  · exact total_two (k1 := .gt) (k2 := .gtEq) '>' '=' ">" ">=" rfl rfl (by decide) (by decide) (by decide) (by decide) (by decide) (by decide)
  · exact total_two (k1 := .lt) (k2 := .ltEq) '<' '=' "<" "<=" rfl rfl (by decide) (by decide) (by decide) (by decide) (by decide) (by decide)
  · intro cs
    by_cases h : ∃ t, cs = '[' :: '[' :: t
    · obtain ⟨t, rfl⟩ := h
      rcases long_split 0 t with h | ⟨body, rest, h1, h2, h3, h4⟩
      · exact ⟨_, _, _, [], (List.append_nil _).symm, .blockCommentEnd h⟩
      · have h1' : t = body ++ ']' :: rest := h1
        by_cases hr : rest.head? = some ']'
        · cases rest with
          | nil => simp at hr
          | cons y ys =>
            simp at hr
            subst hr
            obtain ⟨line, r, e, l1, l2⟩ := line_split ys
            exact ⟨_, _, _, r, by rw [h1', e]; simp, .blockComment (closing := [']']) h2 h3 (.inl rfl) l1 l2⟩
        · obtain ⟨line, r, e, l1, l2⟩ := line_split rest
          exact ⟨_, _, _, r, by rw [h1', e]; simp,
            .blockComment (closing := []) h2 h3 (.inr ⟨rfl, by rw [← e]; exact h4, by rw [← e]; exact hr⟩) l1 l2⟩
    · obtain ⟨line, r, e, l1, l2⟩ := line_split cs
      refine ⟨_, _, _, r, by rw [e]; rfl, .lineComment l1 (fun t ht => ?_) l2⟩
      exact h ⟨t ++ r, by rw [e, ht]; rfl⟩
  · intro cs h
    exact total_op (s := "-") (k := .minus) (by decide) (by rw [show nexts "-" = [] by decide]; simp) (fun _ => h) (fun h => absurd h (by decide))
  · intro c cs hc
    obtain ⟨body, rest, e, hb, hr⟩ := quoted_split c cs
    rcases hr with hr | ⟨r, hr, hl⟩ | hr | hr
    · exact ⟨_, _, _, rest, by rw [e]; rfl, .quotedEnd hc hb (.inl hr)⟩
    · exact ⟨_, _, _, r, by rw [e, hr]; simp, .quoted hc hb hl⟩
    · exact ⟨_, _, _, rest, by rw [e]; rfl, .quotedEnd hc hb (.inr hr)⟩
    · exact ⟨_, _, _, rest, by rw [e]; rfl, .quotedLine hc hb hr⟩
  · intro c cs k h
    have hall : ∀ x ∈ [('(', SyntaxKind.lParen), (')', .rParen), ('{', .lBrace), ('}', .rBrace), (']', .rBracket),
      (',', .comma), (';', .semicolon), ('#', .hash), ('+', .plus), ('*', .asterisk), ('/', .slash),
      ('%', .modulo), ('^', .caret), ('!', .bang)], ∃ p ∈ operators, p.1.toList = [x.1] ∧ nexts p.1 = [] ∧
        p.1 ≠ "-" ∧ p.1 ≠ "[" := by decide
    obtain ⟨p, hp, e, hn, h1, h2⟩ := hall _ (singleKind_mem h)
    have := total_op (s := p.1) (k := p.2) (rest := cs) hp (by rw [hn]; simp) (fun e => absurd e h1) (fun e => absurd e h2)
    rw [e] at this
    exact this
  · intro c cs h
    have e := (List.takeWhile_append_dropWhile (p := nameChar) (l := cs)).symm
    have hw : ∀ x ∈ cs.takeWhile nameChar, nameChar x = true := fun x hx =>
      (List.all_eq_true.mp (List.all_takeWhile (p := nameChar) (l := cs))) x hx
    have hr : ∀ c, (cs.dropWhile nameChar).head? = some c → nameChar c = false := by
      intro x hx
      have := List.head?_dropWhile_not nameChar cs
      rw [hx] at this
      simpa using this
    generalize cs.takeWhile nameChar = w at *
    generalize cs.dropWhile nameChar = r at *
    rw [isIdentStart_eq] at h
    by_cases hk : ∃ p ∈ keywords, p.1.toList = c :: w
    · obtain ⟨p, hp, he⟩ := hk
      refine ⟨p.1.toList, p.2, _, r, by rw [he, e]; rfl, .keyword hp hr⟩
    · exact ⟨_, _, _, r, by rw [e]; rfl, .name h hw (fun p hp he => hk ⟨p, hp, he⟩) hr⟩
  · intro c cs h
    obtain ⟨l, rest, hl⟩ := firstLexeme_exists c cs
    obtain ⟨p, hp⟩ := numberForm_suffix c cs h
    have hf : lexForm c (p ++ numberForm (c :: cs)) = ((.number, none), numberForm (c :: cs)) := by
      rw [hp]; exact lexForm_number h cs
    obtain ⟨err, h3, h4⟩ := lexForm_trunc c p (numberForm (c :: cs)) (by rw [hf])
    rw [hf] at h3 h4
    have h5 := lexForm_spelled _ _ _ _ h3
    rw [if_pos (by simpa using h4)] at h5
    refine ⟨_, _, _, numberForm (c :: cs), by rw [List.cons_append, hp], .number h5 fun p' q e hne hs => ?_⟩
    have h6 := number_suffix hs q
    rw [show c :: p ++ p' ++ q = c :: cs by rw [List.append_assoc, ← e, List.cons_append, hp]] at h6
    have := h6.length_le
    rw [e] at this
    have := List.length_pos_iff.2 hne
    simp only [List.length_append] at *
    omega
  · intro c cs h
    have e := (List.takeWhile_append_dropWhile (p := isWhitespace) (l := cs)).symm
    have hw : ∀ x ∈ cs.takeWhile isWhitespace, isWhitespace x = true := fun x hx =>
      (List.all_eq_true.mp (List.all_takeWhile (p := isWhitespace) (l := cs))) x hx
    have hr : ∀ c, (cs.dropWhile isWhitespace).head? = some c → c ∉ spaces := by
      intro x hx
      have := List.head?_dropWhile_not isWhitespace cs
      rw [hx] at this
      rw [← isWhitespace_iff]
      simpa using this
    refine ⟨c :: cs.takeWhile isWhitespace, _, _, cs.dropWhile isWhitespace, by rw [List.cons_append, ← e], .space (by simp) ?_ hr⟩
    intro x hx
    rw [← isWhitespace_iff]
    rcases List.mem_cons.1 hx with rfl | hx
    · exact h
    · exact hw x hx
  · intro c cs h1 h2 h3 h4 h5
    rw [isIdentStart_eq] at h2
    rw [isNumber_eq] at h3
    refine ⟨[c], _, _, cs, rfl, .other h2 h3 (fun h => ?_) ?_ ?_⟩
    · rw [(isWhitespace_iff c).2 h] at h4; simp at h4
    · intro p hp he
      have hall : ∀ p ∈ operators, ∀ x ∈ p.1.toList, p.1.toList = [x] → (singleKind x).isSome = true ∨
        x ∈ ['=', '~', '[', '.', ':', '>', '<', '-', '\'', '"'] := by decide
      rcases hall p hp c (by rw [he]; simp) he with h | h
      · rw [h1] at h; simp at h
      · exact h5 h
    · intro h
      refine h5 ?_
      simp at h ⊢
      rcases h with h | h | h <;> simp [h]

/-! ### C82 -/

/-- C82, one token: the first token of a text is the one the rules give, with its kind, its length and its error. -/
theorem C82_first_token (w rest : Text) (k : SyntaxKind) (e : Option String) (hw : w ≠ []) :
    firstToken (w ++ rest) = .ok (some (⟨k, w.len⟩, e.map fun m => ⟨m, ⟨0, w.len⟩⟩)) ↔ Reads w k e rest := by
  refine ⟨fun h => ?_, reads_gives⟩
  cases w with
  | nil => exact absurd rfl hw
  | cons c v =>
    obtain ⟨w', k', e', rest', h1, h2⟩ := total_cons c (v ++ rest)
    have h3 := reads_gives h2
    simp only [Gives] at h3
    rw [← h1, ← List.cons_append, h] at h3
    simp only [Except.ok.injEq, Option.some.injEq, Prod.mk.injEq, Token.mk.injEq] at h3
    obtain ⟨⟨rfl, h4⟩, h5⟩ := h3
    obtain ⟨h6, rfl⟩ := Text.append_inj_len (show (c :: v) ++ rest = w' ++ rest' from h1) h4
    subst h6
    have : e = e' := by
      cases e <;> cases e' <;> simp_all
    subst this
    exact h2

/-- The rules give every text that is not empty exactly one first token. -/
theorem C82_rules_total (text : Text) (h : text ≠ []) : ∃ w k e rest, (text = w ++ rest ∧ w ≠ [] ∧ Reads w k e rest) ∧
    ∀ w' k' e' rest', text = w' ++ rest' → Reads w' k' e' rest' → w' = w ∧ k' = k ∧ e' = e ∧ rest' = rest := by
  cases text with
  | nil => exact absurd rfl h
  | cons c cs =>
    obtain ⟨w, k, e, rest, h1, h2⟩ := total_cons c cs
    have h3 := reads_gives h2
    have hw : w ≠ [] := by
      rintro rfl
      obtain ⟨l, r, hl⟩ := firstLexeme_exists c cs
      simp only [Gives] at h3
      rw [← h1, firstToken_eq hl] at h3
      simp only [Except.ok.injEq, Option.some.injEq, Prod.mk.injEq, Token.mk.injEq] at h3
      have := Text.len_pos hl.word_ne
      rw [h3.1.2] at this
      simp at this
    refine ⟨w, k, e, rest, ⟨h1, hw, h2⟩, fun w' k' e' rest' h1' h2' => ?_⟩
    have h3' := reads_gives h2'
    simp only [Gives] at h3 h3'
    rw [← h1'] at h3'
    rw [← h1, h3'] at h3
    simp only [Except.ok.injEq, Option.some.injEq, Prod.mk.injEq, Token.mk.injEq] at h3
    obtain ⟨⟨rfl, h4⟩, h5⟩ := h3
    obtain ⟨rfl, rfl⟩ := Text.append_inj_len (h1'.symm.trans h1) h4
    refine ⟨rfl, rfl, ?_, rfl⟩
    cases e <;> cases e' <;> simp_all

/-- C82, all tokens: tokenizing a text gives the tokens the rules give, from left to right, and the errors of the
tokens with the ranges of the tokens; the rules cut every text in exactly one way. -/
theorem C82_tokenize (text : Text) : ∃ ls, ReadsAll text ls ∧ (∀ ls', ReadsAll text ls' → ls' = ls) ∧
    tokenize text = .ok (ls.map fun l => ⟨l.2.1, l.1.len⟩, (errorsFrom 0 ls).map fun e => ⟨e.1, ⟨e.2.1, e.2.2⟩⟩) := by
  suffices H : ∀ (pos : Nat) (text : Text) (ls : List Lexeme), Lexemes text ls →
      ReadsAll text (ls.map fun l => (l.word, l.kind, l.err)) ∧
      (∀ ls', ReadsAll text ls' → ls' = ls.map fun l => (l.word, l.kind, l.err)) ∧
      (attach pos ls).filterMap (·.2) =
        (errorsFrom pos (ls.map fun l => (l.word, l.kind, l.err))).map fun e => ⟨e.1, ⟨e.2.1, e.2.2⟩⟩ by
    obtain ⟨ls, h⟩ := lexemes_exists text
    obtain ⟨h1, h2, h3⟩ := H 0 text ls h
    refine ⟨_, h1, h2, ?_⟩
    rw [tokenize_eq h, h3, attach_tokens]
    simp [Function.comp_def]
  intro pos text ls h
  induction h generalizing pos with
  | nil =>
    refine ⟨.nil, fun ls' h => ?_, rfl⟩
    generalize ht : ([] : Text) = t at h
    cases h with
    | nil => rfl
    | cons h1 h2 =>
      simp only [List.nil_eq, List.append_eq_nil_iff] at ht
      obtain ⟨rfl, rfl⟩ := ht
      have := reads_gives h1
      simp [Gives, firstToken] at this
  | @cons s l rest ls h1 h2 ih =>
    obtain ⟨i1, i2, i3⟩ := ih (pos + l.word.len)
    have hr : Reads l.word l.kind l.err rest := by
      refine (C82_first_token _ _ _ _ h1.word_ne).1 ?_
      rw [← h1.append, firstToken_eq h1]
      simp [Range.upTo]
    refine ⟨?_, fun ls' h => ?_, ?_⟩
    · rw [h1.append]
      exact .cons hr i1
    · have hs := h1.append
      generalize ht : s = t at h
      cases h with
      | nil => rw [ht] at hs; simp at hs; exact absurd hs.1 h1.word_ne
      | @cons w k e rest' ls' h3 h4 =>
        obtain ⟨w0, k0, e0, r0, _, hu⟩ := C82_rules_total s (by rw [hs]; simp [h1.word_ne])
        obtain ⟨rfl, rfl, rfl, rfl⟩ := hu _ _ _ _ ht h3
        obtain ⟨rfl, rfl, rfl, rfl⟩ := hu _ _ _ _ hs hr
        rw [i2 _ h4]
        rfl
    · simp only [attach, List.map_cons, errorsFrom]
      cases he : l.err with
      | none => simpa using i3
      | some m => simp [i3, Range.ofLen]

/-- The rules on a text with every kind of oddity: an unclosed string, a lone `~`, a number followed by a name, a block
comment that swallows the rest of its line. -/
example : tokenize "x='a\n~0xg--[[b]]c\n$".toList = .ok
    ([⟨.ident, 1⟩, ⟨.eq, 1⟩, ⟨.str, 2⟩, ⟨.whitespace, 1⟩, ⟨.unknown, 1⟩, ⟨.number, 2⟩, ⟨.ident, 1⟩, ⟨.comment, 8⟩,
      ⟨.whitespace, 1⟩, ⟨.unknown, 1⟩],
     [⟨"Unexpected newline in string", ⟨2, 4⟩⟩, ⟨"Got an unknown token", ⟨18, 19⟩⟩]) := by decide +kernel
example : Reads ['\'', 'a', '\\', '\'', 'b'] .str (some "Unexpected newline in string") ['\n'] :=
  .quotedLine (.inl rfl) ⟨by decide, fun p q h => by
    match p, h with
    | [], h => simp at h
    | [a], h => simp at h
    | [a, b], h => simp at h; simp [h.2.1.symm]
    | [a, b, c], h => simp at h
    | a :: b :: c :: d :: p, h => simp at h⟩ rfl

end Verif
