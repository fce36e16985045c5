import Verif.Model.Uri
import Verif.Spec.Uris
import Verif.Props.Paths

/-
C116: the URIs of the protocol and the paths of files.
-/
namespace Verif.Uri
open Verif.Spec PathSpec Paths

/-! ## Segments -/

private theorem splitSlash_eq (p : Text) : splitSlash p = segments p := by
  induction p with
  | nil => rfl
  | cons c cs ih =>
    simp only [splitSlash, List.foldr_cons, segments] at ih ⊢
    rw [ih]
    split
    · rfl
    · cases segments cs <;> rfl

private theorem segments_flat : ∀ p : Text, (segments p).flatMap ('/' :: ·) = '/' :: p
  | [] => rfl
  | c :: cs => by
    have ih := segments_flat cs
    unfold segments
    by_cases h : c = '/'
    · subst h
      simp only [if_true, List.flatMap_cons, ih]; rfl
    · rw [if_neg h]
      cases e : segments cs with
      | nil => exact absurd e (segments_ne cs)
      | cons s ss =>
        rw [e] at ih
        simp only [List.flatMap_cons, List.cons_append, List.cons.injEq, true_and] at ih ⊢
        exact ih

private theorem segments_free : ∀ p s : Text, s ∈ segments p → '/' ∉ s
  | [], s, h => by
    have : s = [] := by simpa [segments] using h
    subst this; simp
  | c :: cs, s, h => by
    unfold segments at h
    by_cases hc : c = '/'
    · rw [if_pos hc] at h
      rcases List.mem_cons.1 h with h | h
      · subst h; simp
      · exact segments_free cs s h
    · rw [if_neg hc] at h
      cases e : segments cs with
      | nil => exact absurd e (segments_ne cs)
      | cons t ts =>
        rw [e] at h
        rcases List.mem_cons.1 h with h | h
        · subst h
          have := segments_free cs t (by rw [e]; simp)
          simp only [List.mem_cons, not_or]
          exact ⟨fun e => hc e.symm, this⟩
        · exact segments_free cs s (by rw [e]; simp [h])

theorem segments_one : ∀ {n : Text}, '/' ∉ n → segments n = [n]
  | [], _ => rfl
  | c :: cs, h => by
    simp only [List.mem_cons, not_or] at h
    unfold segments
    rw [if_neg (fun e => h.1 e.symm), segments_one h.2]

/-- A list of names, each without a separator and after one, is split into these names. -/
private theorem segments_join : ∀ {ns : List Text}, (∀ n ∈ ns, '/' ∉ n) → ns ≠ [] → ∀ {q : Text},
    ns.flatMap ('/' :: ·) = '/' :: q → segments q = ns
  | [], _, h, _, _ => absurd rfl h
  | [n], h, _, q, e => by
    have e : n = q := by simpa using e
    subst e
    exact segments_one (h _ (by simp))
  | n :: m :: ns, h, _, q, e => by
    have e : n ++ (m :: ns).flatMap ('/' :: ·) = q := by
      simp only [List.flatMap_cons, List.cons_append, List.cons.injEq, true_and] at e ⊢
      exact e
    obtain ⟨r, hr⟩ : ∃ r, (m :: ns).flatMap ('/' :: ·) = '/' :: r := ⟨m ++ ns.flatMap ('/' :: ·), by simp⟩
    rw [hr] at e
    rw [← e, segments_append, segments_one (h n (by simp)), segments_join (fun x hx => h x (by simp [hx])) (by simp) hr]
    rfl

private theorem segments_sep (p : Text) : segments ('/' :: p) = [] :: segments p := by simp [segments]

theorem steps_sep (p : Text) : steps ('/' :: p) = steps p := by
  simp [steps, segments_sep]

theorem steps_end (p : Text) : steps (p ++ ['/']) = steps p := by
  have := segments_append p []
  simp [steps, this, segments]

theorem steps_mem {p n : Text} (h : n ∈ steps p) : n ≠ [] ∧ n ≠ ['.'] ∧ '/' ∉ n := by
  unfold steps at h
  rw [List.mem_filter] at h
  have h2 := of_decide_eq_true h.2
  exact ⟨h2.1, h2.2, segments_free _ _ h.1⟩

private theorem steps_join {ns : List Text} (h : ∀ n ∈ ns, n ≠ [] ∧ n ≠ ['.'] ∧ '/' ∉ n) :
    steps (ns.flatMap ('/' :: ·)) = ns := by
  cases ns with
  | nil => rfl
  | cons n ns =>
    obtain ⟨q, hq⟩ : ∃ q, (n :: ns).flatMap ('/' :: ·) = '/' :: q := ⟨n ++ ns.flatMap ('/' :: ·), by simp⟩
    rw [hq, steps_sep, steps, segments_join (fun m hm => (h m hm).2.2) (by simp) hq, List.filter_eq_self]
    intro m hm
    simpa using ⟨(h m hm).1, (h m hm).2.1⟩

/-! ## Components -/

/-- The component a step is. -/
def component (s : Text) : Component := if s = ['.', '.'] then .parentDir else .normal s

theorem component_str (s : Text) : (component s).asStr = s := by
  unfold component
  split
  · next h => subst h; rfl
  · rfl

theorem parse_steps (ss : List Text) :
    ss.filterMap parseSingle = (ss.filter fun s => s ≠ [] ∧ s ≠ ['.']).map component := by
  induction ss with
  | nil => rfl
  | cons s ss ih =>
    have hs : parseSingle s = if s ≠ [] ∧ s ≠ ['.'] then some (component s) else none := by
      unfold parseSingle component
      by_cases h1 : s = ['.']
      · simp [h1]
      · by_cases h2 : s = []
        · simp [h2]
        · by_cases h3 : s = ['.', '.']
          · simp [h3]
          · simp [h1, h2, h3]
    rw [List.filterMap_cons, List.filter_cons, hs, ih]
    by_cases h : s ≠ [] ∧ s ≠ ['.']
    · rw [if_pos h, if_pos (by simpa using h)]; rfl
    · rw [if_neg h, if_neg (by simpa using h)]

theorem components_abs {p : Text} (h : isAbsolute p = true) :
    components p = .rootDir :: (steps p).map component := by
  obtain ⟨q, rfl⟩ := abs_cons h
  unfold components
  rw [if_pos h, bodyComponents_eq, parse_steps, steps_sep]
  rfl

/-- Two absolute paths are equal, as paths, exactly when they have the same names (`..` being one), whatever the
number of separators and of `.` between them. -/
theorem C116_same_path {p q : Text} (hp : isAbsolute p = true) (hq : isAbsolute q = true) :
    samePath p q ↔ steps p = steps q := by
  unfold samePath
  rw [components_abs hp, components_abs hq]
  constructor
  · intro h
    have h : (steps p).map component = (steps q).map component := by simpa using h
    have := congrArg (List.map Component.asStr) h
    simpa [Function.comp_def, component_str] using this
  · intro h; rw [h]

/-! ## Codes -/

private theorem small_char {P : Char → Prop} (h : ∀ n < 128, P (Char.ofNat n)) {c : Char} (hc : c.toNat < 128) : P c := by
  have := h c.toNat hc
  rwa [Char.ofNat_toNat] at this

private theorem hex_eq (c : Char) : hexValue c = digitValue c := by
  by_cases hc : c.toNat < 128
  · exact small_char (P := fun c => hexValue c = digitValue c) (by decide +kernel) hc
  · have h1 : ∀ l : List Char, (∀ x ∈ l, x.toNat < 128) → l.idxOf? c = none := by
      intro l hl
      rw [List.idxOf?_eq_none_iff]
      exact fun h => hc (hl c h)
    have h2 : digitValue c = none := by
      unfold digitValue
      rw [h1 _ (by decide), h1 _ (by decide)]; rfl
    have h3 : ∀ x : Char, x.toNat < 128 → ¬c ≤ x := by
      intro x hx h
      have : c.toNat ≤ x.toNat := h
      omega
    rw [h2, hexValue, if_neg (fun h => h3 '9' (by decide) h.2), if_neg (fun h => h3 'f' (by decide) h.2),
      if_neg (fun h => h3 'F' (by decide) h.2)]

private theorem digit_lt {c : Char} {n : Nat} (h : digitValue c = some n) : n < 16 := by
  unfold digitValue at h
  rw [Option.or_eq_some_iff] at h
  have : ∀ l : List Char, l.length = 16 → l.idxOf? c = some n → n < 16 := by
    intro l hl h
    rw [List.idxOf?_eq_some_iff] at h
    obtain ⟨h, _⟩ := h
    omega
  rcases h with h | h
  · exact this _ (by decide) h
  · exact this _ (by decide) h.2

/-- Every spelling has exactly one reading, and it is the one the program computes. -/
theorem C116_reading (s b : Text) : Spells s b ↔ percentDecode s = b := by
  have hcode : ∀ {h l : Char} {rest : Text} {n : Nat}, StartsWithByte (h :: l :: rest) n ↔
      ∃ a b, hexValue h = some a ∧ hexValue l = some b ∧ n = a * 16 + b := by
    intro h l rest n
    simp only [hex_eq]
    constructor
    · rintro ⟨_, _, a, b, _, e, h1, h2, h3⟩
      injection e with e1 e2
      injection e2 with e2 e3
      subst e1 e2
      exact ⟨a, b, h1, h2, by omega⟩
    · rintro ⟨a, b, h1, h2, h3⟩
      exact ⟨h, l, a, b, rest, rfl, h1, h2, by omega⟩
  have hcode2 : ∀ {s : Text} {n : Nat}, StartsWithByte s n → ∃ h l rest, s = h :: l :: rest := by
    rintro s n ⟨h, l, _, _, rest, e, _⟩
    exact ⟨h, l, rest, e⟩
  have sound : ∀ s, Spells s (percentDecode s) := by
    intro s
    fun_induction percentDecode s with
    | case1 => exact .nil
    | case2 h l rest a b h1 h2 ih => exact .coded (hcode.2 ⟨a, b, h2, h1, rfl⟩) ih
    | case3 h l rest hn ih =>
      refine .plain (fun _ => ?_) ih
      rintro ⟨n, hs⟩
      obtain ⟨a, b, h1, h2, _⟩ := hcode.1 hs
      exact hn a b h1 h2
    | case4 c rest hn ih =>
      refine .plain ?_ ih
      rintro rfl ⟨n, hs⟩
      obtain ⟨h, l, r, rfl⟩ := hcode2 hs
      exact hn h l r rfl rfl
  have unique : ∀ {s b c}, Spells s b → Spells s c → b = c := by
    intro s b c h
    induction h generalizing c with
    | nil => intro h; cases h; rfl
    | coded hs _ ih =>
      intro h
      cases h with
      | coded hs2 h2 =>
        obtain ⟨_, _, a1, b1, e⟩ := hcode.1 hs
        obtain ⟨_, _, a2, b2, e2⟩ := hcode.1 hs2
        rw [a1] at a2; rw [b1] at b2
        injection a2 with a2; injection b2 with b2
        subst a2 b2 e e2
        rw [ih h2]
      | plain hn _ => exact absurd ⟨_, hs⟩ (hn rfl)
    | plain hn _ ih =>
      intro h
      cases h with
      | coded hs2 h2 => exact absurd ⟨_, hs2⟩ (hn rfl)
      | plain _ h2 => rw [ih h2]
  exact ⟨fun h => unique (sound s) h, fun h => h ▸ sound s⟩

private theorem decode_sep (s t : Text) : percentDecode (s ++ '/' :: t) = percentDecode s ++ '/' :: percentDecode t := by
  fun_induction percentDecode s with
  | case1 => simp [percentDecode]
  | case2 h l rest a b h1 h2 ih => simp only [List.cons_append, percentDecode, h1, h2, ih]
  | case3 h l rest hn ih =>
    simp only [List.cons_append] at ih ⊢
    rw [percentDecode]
    split
    · next h1 h2 => exact absurd h2 (hn _ _ h1)
    · rw [ih]
  | case4 c rest hn ih =>
    simp only [List.cons_append]
    rw [percentDecode.eq_def]
    split
    · next e => simp at e
    · next h l r e =>
      injection e with e1 e2
      subst e1
      have hx : hexValue '/' = none := by decide
      match rest, hn, ih, e2 with
      | [], hn, ih, e2 =>
        injection e2 with e2 e3
        subst e2
        simp only [hx]
        rw [← e3]; exact congrArg _ ih
      | [x], hn, ih, e2 =>
        injection e2 with e2 e3
        injection e3 with e3 e4
        subst e2 e3 e4
        simp only [hx]
        simp only [List.cons_append, List.nil_append] at ih
        cases hexValue x <;> simp only [ih]
      | x :: y :: r, hn, ih, e2 => exact absurd rfl (hn x y r rfl)
    · next c' r' hn' e =>
      injection e with e1 e2
      subst e1 e2
      rw [ih]

private theorem decode_join (ss : List Text) :
    (ss.flatMap fun s => '/' :: percentDecode s) = percentDecode (ss.flatMap ('/' :: ·)) := by
  induction ss with
  | nil => rfl
  | cons s ss ih =>
    have h1 : ∀ t : Text, percentDecode ('/' :: t) = '/' :: percentDecode t := fun t => decode_sep [] t
    rw [List.flatMap_cons, List.flatMap_cons, ih, List.cons_append, List.cons_append, h1]
    cases ss with
    | nil => simp [percentDecode]
    | cons r rs =>
      simp only [List.flatMap_cons, List.cons_append]
      rw [decode_sep, h1]

private theorem decode_path (rest : Text) :
    ((splitSlash rest).flatMap fun s => '/' :: percentDecode s) = percentDecode ('/' :: rest) := by
  rw [decode_join, splitSlash_eq, segments_flat]

private theorem letter_iff (c : Char) :
    isLetter c = true ↔ c ∈ "abcdefghijklmnopqrstuvwxyzABCDEFGHIJKLMNOPQRSTUVWXYZ".toList := by
  by_cases hc : c.toNat < 128
  · refine small_char (P := fun c => isLetter c = true ↔ c ∈ "abcdefghijklmnopqrstuvwxyzABCDEFGHIJKLMNOPQRSTUVWXYZ".toList) ?_ hc
    decide +kernel
  · refine ⟨fun h => absurd h ?_, fun h => absurd h ?_⟩
    · simp only [isLetter, Bool.or_eq_true, Bool.and_eq_true, decide_eq_true_eq]
      rintro (⟨-, h⟩ | ⟨-, h⟩)
      · have : c.toNat ≤ 'z'.toNat := h
        have e : 'z'.toNat = 122 := rfl
        omega
      · have : c.toNat ≤ 'Z'.toNat := h
        have e : 'Z'.toNat = 90 := rfl
        omega
    · have : ∀ x ∈ "abcdefghijklmnopqrstuvwxyzABCDEFGHIJKLMNOPQRSTUVWXYZ".toList, x.toNat < 128 := by decide
      exact fun h => hc (this c h)

private theorem segmentsToPath_cases (ss : List Text) :
    EndsLikeDrive (ss.flatMap fun s => '/' :: percentDecode s) ∧
      segmentsToPath ss = (ss.flatMap fun s => '/' :: percentDecode s) ++ ['/'] ∨
    ¬ EndsLikeDrive (ss.flatMap fun s => '/' :: percentDecode s) ∧
      segmentsToPath ss = (ss.flatMap fun s => '/' :: percentDecode s) := by
  unfold segmentsToPath
  generalize (ss.flatMap fun s => '/' :: percentDecode s) = b
  dsimp only
  have hrev : ∀ front x c, b = front ++ [x, c] ↔ b.reverse = c :: x :: front.reverse := by
    intro front x c
    constructor
    · rintro rfl; simp
    · intro h
      have := congrArg List.reverse h
      simpa using this
  split
  · next colon letter y rest e =>
    have hb : b = (y :: rest).reverse ++ [letter, colon] := (hrev _ _ _).2 (by rw [e]; simp)
    have hiff : EndsLikeDrive b ↔ isLetter letter = true ∧ (colon = ':' ∨ colon = '|') := by
      rw [letter_iff]
      constructor
      · rintro ⟨front, x, c, -, h, h1, h2⟩
        rw [hrev, e] at h
        simp only [List.cons.injEq] at h
        obtain ⟨rfl, rfl, -⟩ := h
        exact ⟨h1, h2⟩
      · rintro ⟨h1, h2⟩
        exact ⟨_, _, _, by simp, hb, h1, h2⟩
    split
    · next h => exact .inl ⟨hiff.2 (by simpa using h), rfl⟩
    · next h => exact .inr ⟨fun hh => h (by simpa using hiff.1 hh), rfl⟩
  · next h =>
    refine .inr ⟨?_, rfl⟩
    rintro ⟨front, x, c, hne, hb, -⟩
    rw [hrev] at hb
    cases hf : front.reverse with
    | nil => simp at hf; exact hne hf
    | cons y rest => exact h _ _ _ _ (by rw [hb, hf])

/-- Which URIs name a file: the ones whose path starts with a `/` and that have no host or the host `localhost`;
the scheme does not matter. -/
def NamesFile (u : Url) : Prop :=
  u.path.head? = some '/' ∧ (u.host = none ∨ u.host = some "localhost".toList)

/-- The path of a URI that names a file is what the path of the URI spells, with a `/` at the end if it
ends like a drive of Windows; other URIs are
an error, and nothing panics. -/
theorem C116_abs_path (u : Url) :
    (NamesFile u → ∃ b p, Spells u.path b ∧ absPath u = some (some p) ∧ isAbsolute p = true ∧
      (EndsLikeDrive b ∧ p = b ++ ['/'] ∨ ¬EndsLikeDrive b ∧ p = b) ∧ steps p = steps b) ∧
    (¬NamesFile u → absPath u = some none) := by
  constructor
  · rintro ⟨h1, h2⟩
    obtain ⟨rest, hp⟩ : ∃ rest, u.path = '/' :: rest := by
      cases hp : u.path with
      | nil => rw [hp] at h1; cases h1
      | cons c rest => rw [hp] at h1; injection h1 with h1; exact ⟨rest, by rw [h1]⟩
    have hsegs : pathSegments u = some (splitSlash rest) := by unfold pathSegments; rw [hp]; rfl
    have hto : toFilePath u = some (segmentsToPath (splitSlash rest)) := by
      unfold toFilePath
      rw [hsegs]
      rcases h2 with h2 | h2 <;> rw [h2]
      simp
    have hb := decode_path rest
    have hd : percentDecode ('/' :: rest) = '/' :: percentDecode rest := decode_sep [] rest
    have hcases := segmentsToPath_cases (splitSlash rest)
    rw [hb] at hcases
    have habs : isAbsolute (segmentsToPath (splitSlash rest)) = true := by
      rcases hcases with ⟨-, h⟩ | ⟨-, h⟩ <;> rw [h, hd] <;> rfl
    refine ⟨percentDecode u.path, segmentsToPath (splitSlash rest), (C116_reading _ _).2 rfl, ?_, habs, ?_, ?_⟩
    · unfold absPath
      rw [hto]
      simp [tryFrom, habs]
    · rw [hp]; exact hcases
    · rw [hp]
      rcases hcases with ⟨-, h⟩ | ⟨-, h⟩ <;> rw [h]
      exact steps_end _
  · intro h
    have : toFilePath u = none := by
      unfold toFilePath
      cases hseg : pathSegments u with
      | none => rfl
      | some segs =>
        have h1 : u.path.head? = some '/' := by
          unfold pathSegments at hseg
          split at hseg
          · next e => rw [e]; rfl
          · cases hseg
        cases hh : u.host with
        | none => exact absurd ⟨h1, .inl hh⟩ h
        | some x =>
          have hx : x ≠ "localhost".toList := fun e => h ⟨h1, .inr (by rw [hh, e])⟩
          dsimp only
          rw [if_neg hx]
    unfold absPath
    rw [this]

/-! ## Writing -/

private theorem should_iff (c : Char) : shouldEncode c = true ↔ Reserved c := by
  by_cases hc : c.toNat < 128
  · refine small_char (P := fun c => shouldEncode c = true ↔ Reserved c) ?_ hc
    unfold Reserved
    decide +kernel
  · have h1 : shouldEncode c = true := by
      have : c.toNat ≥ 128 := by omega
      simp [shouldEncode, this]
    exact ⟨fun _ => .inr (.inl (by omega)), fun _ => h1⟩

private theorem encode_cons (c : Char) (s : Text) : percentEncode (c :: s) =
    (if shouldEncode c then percentEncodeByte c else [c]) ++ percentEncode s := rfl

private theorem digits_at {n : Nat} (h : n < 16) :
    "0123456789ABCDEF".toList[n]? =
      some (if n < 10 then Char.ofNat ('0'.toNat + n) else Char.ofNat ('A'.toNat + n - 10)) := by
  have : ∀ n < 16, "0123456789ABCDEF".toList[n]? =
      some (if n < 10 then Char.ofNat ('0'.toNat + n) else Char.ofNat ('A'.toNat + n - 10)) := by decide +kernel
  exact this n h

/-- The bytes of a text. -/
def Bytes (s : Text) : Prop := ∀ c ∈ s, c.toNat < 256

/-- Every name has exactly one proper spelling, the one the program writes. -/
theorem C116_writing {n : Text} (h : Bytes n) (s : Text) : Written n s ↔ percentEncode n = s := by
  induction n generalizing s with
  | nil =>
    constructor
    · intro h; cases h; rfl
    · intro h; subst h; exact .nil
  | cons c n ih =>
    have hb : Bytes n := fun x hx => h x (by simp [hx])
    have hc : c.toNat < 256 := h c (by simp)
    have d1 := digits_at (n := c.toNat / 16) (by omega)
    have d2 := digits_at (n := c.toNat % 16) (by omega)
    rw [encode_cons]
    constructor
    · intro w
      cases w with
      | plain hr w =>
        rw [if_neg (fun e => hr ((should_iff c).1 e)), (ih hb _).1 w]; rfl
      | coded hr e1 e2 w =>
        rw [d1] at e1; rw [d2] at e2
        injection e1 with e1; injection e2 with e2
        rw [if_pos ((should_iff c).2 hr), (ih hb _).1 w, ← e1, ← e2]
        rfl
    · intro e
      subst e
      by_cases hr : Reserved c
      · rw [if_pos ((should_iff c).2 hr)]
        exact .coded hr d1 d2 ((ih hb _).2 rfl)
      · rw [if_neg (fun e => hr ((should_iff c).1 e))]
        exact .plain hr ((ih hb _).2 rfl)

private theorem writtenPath_iff : ∀ {ns : List Text}, (∀ n ∈ ns, Bytes n) → ∀ s, WrittenPath ns s ↔
    (if ns = [] then ['/'] else ns.flatMap fun n => '/' :: percentEncode n) = s
  | [], _, s => by
    constructor
    · intro h; cases h; rfl
    · intro h; subst h; exact .root
  | [n], h, s => by
    have hn := C116_writing (h n (by simp))
    constructor
    · intro w
      cases w with
      | one w => simp [(hn _).1 w]
    · intro e
      subst e
      simpa using WrittenPath.one ((hn _).2 rfl)
  | n :: m :: ns, h, s => by
    have hn := C116_writing (h n (by simp))
    have ih := writtenPath_iff (ns := m :: ns) (fun x hx => h x (by simp [hx]))
    constructor
    · intro w
      cases w with
      | more w1 w2 =>
        have e := (ih _).1 w2
        rw [if_neg (by simp)] at e ⊢
        rw [List.flatMap_cons, (hn _).1 w1, e]
    · intro e
      subst e
      rw [if_neg (by simp), List.flatMap_cons]
      refine .more ((hn _).2 rfl) ((ih _).2 ?_)
      rw [if_neg (by simp)]

private theorem steps_bytes {p : Text} (h : Bytes p) : ∀ n ∈ steps p, Bytes n := by
  intro n hn c hc
  unfold steps at hn
  have hs := (List.mem_filter.1 hn).1
  have : c ∈ (segments p).flatMap ('/' :: ·) := by
    rw [List.mem_flatMap]
    exact ⟨n, hs, by simp [hc]⟩
  rw [segments_flat] at this
  rcases List.mem_cons.1 this with e | e
  · subst e; decide
  · exact h c e

private theorem url_eq {p : Text} (h : isAbsolute p = true) : urlFromAbsPath p = some
    { scheme := "file".toList, host := none, query := [],
      path := if steps p = [] then ['/'] else (steps p).flatMap fun n => '/' :: percentEncode n } := by
  unfold urlFromAbsPath fromFilePath
  rw [if_pos h, if_pos h]
  have : ((components p).drop 1).map Component.asStr = steps p := by
    rw [components_abs h]
    simp [Function.comp_def, component_str]
  dsimp only
  rw [this]

/-- The URI of an absolute path: the scheme is `file`, there is no host, and the path spells the names, each properly
and after a `/`. -/
theorem C116_url {p : Text} (h : isAbsolute p = true) (hb : Bytes p) :
    ∃ s, WrittenPath (steps p) s ∧
      urlFromAbsPath p = some { scheme := "file".toList, host := none, path := s, query := [] } :=
  ⟨_, (writtenPath_iff (steps_bytes hb) _).2 rfl, url_eq h⟩

private theorem hex_digit {n : Nat} (h : n < 16) :
    hexValue (if n < 10 then Char.ofNat ('0'.toNat + n) else Char.ofNat ('A'.toNat + n - 10)) = some n := by
  have : ∀ n < 16, hexValue (if n < 10 then Char.ofNat ('0'.toNat + n) else Char.ofNat ('A'.toNat + n - 10)) = some n := by
    decide +kernel
  exact this n h

private theorem decode_encode : ∀ {n : Text}, Bytes n → ∀ t, percentDecode (percentEncode n ++ '/' :: t) = n ++ percentDecode ('/' :: t)
  | [], _, t => rfl
  | c :: n, h, t => by
    have ih := decode_encode (n := n) (fun x hx => h x (by simp [hx])) t
    have hc : c.toNat < 256 := h c (by simp)
    rw [encode_cons, List.append_assoc]
    by_cases hs : shouldEncode c = true
    · rw [if_pos hs]
      have d1 := hex_digit (n := c.toNat / 16) (by omega)
      have d2 := hex_digit (n := c.toNat % 16) (by omega)
      have e : c.toNat / 16 * 16 + c.toNat % 16 = c.toNat := by omega
      simp only [percentEncodeByte, List.cons_append, List.nil_append, percentDecode, d1, d2, e, Char.ofNat_toNat, ih]
    · rw [if_neg hs]
      have hp : c ≠ '%' := by rintro rfl; exact hs (by decide)
      rw [List.singleton_append, percentDecode, ih]
      · rfl
      · intro a b c e; exact absurd e hp

private theorem decode_encode_nil {n : Text} (h : Bytes n) : percentDecode (percentEncode n) = n := by
  have := decode_encode h []
  rw [decode_sep] at this
  exact List.append_cancel_right this

private theorem decode_written {ns : List Text} (h : ∀ n ∈ ns, Bytes n) :
    percentDecode (ns.flatMap fun n => '/' :: percentEncode n) = ns.flatMap ('/' :: ·) := by
  have := decode_join (ns.map percentEncode)
  rw [List.flatMap_map, List.flatMap_map] at this
  rw [← this]
  clear this
  induction ns with
  | nil => rfl
  | cons n ns ih =>
    rw [List.flatMap_cons, List.flatMap_cons, decode_encode_nil (h n (by simp)), ih (fun m hm => h m (by simp [hm]))]

/-- The URI of a path is the URI of that path: a client that sends back the URI the server gave it means the same
file. -/
theorem C116_round_trip {p : Text} (h : isAbsolute p = true) (hb : Bytes p) :
    ∃ u q, urlFromAbsPath p = some u ∧ absPath u = some (some q) ∧ samePath q p := by
  have hn : NamesFile ⟨"file".toList, none,
      if steps p = [] then ['/'] else (steps p).flatMap fun n => '/' :: percentEncode n, []⟩ := by
    refine ⟨?_, .inl rfl⟩
    dsimp only
    split
    · rfl
    · next hne =>
      cases hs : steps p with
      | nil => exact absurd hs hne
      | cons n ns => rfl
  obtain ⟨b, q, hs, ha, habs, _, hst⟩ := (C116_abs_path _).1 hn
  refine ⟨_, q, url_eq h, ha, (C116_same_path habs h).2 ?_⟩
  rw [hst]
  have hs := (C116_reading _ _).1 hs
  dsimp only at hs
  split at hs
  · next he => rw [← hs, he]; rfl
  · rw [decode_written (steps_bytes hb)] at hs
    rw [← hs, steps_join fun n hn => steps_mem hn]

private theorem decode_bytes {s : Text} (h : ∀ c ∈ s, c.toNat < 128) : Bytes (percentDecode s) := by
  fun_induction percentDecode s with
  | case1 => intro c hc; cases hc
  | case2 x l rest a b h1 h2 ih =>
    intro c hc
    rcases List.mem_cons.1 hc with e | e
    · rw [hex_eq] at h1 h2
      have := digit_lt h1
      have := digit_lt h2
      subst e
      have : ∀ n < 256, (Char.ofNat n).toNat < 256 := by decide +kernel
      exact this _ (by omega)
    · exact ih (fun y hy => h y (by simp [hy])) c e
  | case3 x l rest hn ih =>
    intro c hc
    rcases List.mem_cons.1 hc with e | e
    · subst e; decide
    · exact ih (fun y hy => h y (List.mem_cons_of_mem _ hy)) c e
  | case4 x rest hn ih =>
    intro c hc
    rcases List.mem_cons.1 hc with e | e
    · subst e; have := h c (by simp); omega
    · exact ih (fun y hy => h y (List.mem_cons_of_mem _ hy)) c e

/-- The server answers under the URI the client used exactly when that URI is the proper one: the scheme `file`, no
host, nothing after the path, and in the path proper names properly spelled. -/
theorem C116_same_uri {u : Url} {p : Text} (hu : ∀ c ∈ u.path, c.toNat < 128) (h : absPath u = some (some p)) :
    urlFromAbsPath p = some u ↔ u.scheme = "file".toList ∧ u.host = none ∧ u.query = [] ∧
      ∃ names, (∀ n ∈ names, n ≠ [] ∧ n ≠ ['.'] ∧ '/' ∉ n) ∧ (∀ n ∈ names, Bytes n) ∧ WrittenPath names u.path := by
  have hn : NamesFile u := by
    apply Classical.byContradiction
    intro hn
    rw [(C116_abs_path u).2 hn] at h
    cases h
  obtain ⟨b, q, hs, ha, habs, hpq, hst⟩ := (C116_abs_path u).1 hn
  rw [h] at ha
  obtain rfl : p = q := by injection ha with ha; injection ha
  have hs := (C116_reading _ _).1 hs
  have hbb : Bytes b := hs ▸ decode_bytes hu
  have hbs : ∀ n ∈ steps p, Bytes n := hst ▸ steps_bytes hbb
  rw [url_eq habs]
  constructor
  · intro e
    injection e with e
    subst e
    exact ⟨rfl, rfl, rfl, steps p, fun n hn => steps_mem hn, hbs, (writtenPath_iff hbs _).2 rfl⟩
  · rintro ⟨h1, h2, h3, names, hnames, hnb, hw⟩
    have hp := (writtenPath_iff hnb _).1 hw
    have : steps p = names := by
      rw [hst, ← hs, ← hp]
      by_cases he : names = []
      · rw [if_pos he, he]; rfl
      · rw [if_neg he, decode_written hnb, steps_join hnames]
    rw [this, hp, ← h1, ← h2, ← h3]

/-- A URI that is not properly spelled is answered under another one: `+` need not be coded, but may be. -/
theorem C116_same_uri_fails :
    absPath ⟨"file".toList, none, "/a%2Bb.lua".toList, []⟩ = some (some "/a+b.lua".toList) ∧
    urlFromAbsPath "/a+b.lua".toList = some ⟨"file".toList, none, "/a+b.lua".toList, []⟩ := by
  decide +kernel

/-- Different documents of the client are one file for the server: the scheme and what follows the path are not looked
at, and a coded separator separates. -/
theorem C116_distinct_fails :
    absPath ⟨"file".toList, none, "/a.lua".toList, []⟩ = some (some "/a.lua".toList) ∧
    absPath ⟨"git".toList, none, "/a.lua".toList, "?HEAD".toList⟩ = some (some "/a.lua".toList) ∧
    absPath ⟨"file".toList, none, "/b%2Fa.lua".toList, []⟩ = absPath ⟨"file".toList, none, "/b/a.lua".toList, []⟩ := by
  decide +kernel

/-- Example: a path with a space, a byte that is not ASCII, a percent sign, superfluous separators. -/
example : isAbsolute "//a b/./ü%//c:".toList = true ∧ Bytes "//a b/./ü%//c:".toList ∧
    urlFromAbsPath "//a b/./ü%//c:".toList = some ⟨"file".toList, none, "/a%20b/%FC%25/c:".toList, []⟩ ∧
    absPath ⟨"file".toList, none, "/a%20b/%FC%25/c:".toList, []⟩ = some (some "/a b/ü%/c:/".toList) ∧
    absPath ⟨"untitled".toList, none, "Untitled-1".toList, []⟩ = some none ∧
    absPath ⟨"file".toList, some "server".toList, "/a".toList, []⟩ = some none := by
  refine ⟨by decide +kernel, ?_, by decide +kernel, by decide +kernel, by decide +kernel, by decide +kernel⟩
  unfold Bytes
  decide +kernel

/-- Example: a proper URI. -/
example : WrittenPath ["a b".toList, "..".toList, "c".toList] "/a%20b/../c".toList :=
  .more (s := "a%20b".toList)
    (.plain (by unfold Reserved; decide +kernel) (.coded (by unfold Reserved; decide +kernel) rfl rfl
      (.plain (by unfold Reserved; decide +kernel) .nil)))
    (.more (s := "..".toList)
      (.plain (by unfold Reserved; decide +kernel) (.plain (by unfold Reserved; decide +kernel) .nil))
      (.one (.plain (by unfold Reserved; decide +kernel) .nil)))

end Verif.Uri
