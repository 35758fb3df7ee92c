import Verif.Text.JniName

/-
Property C48: native method symbol names.
-/
namespace Avian.JniName

/-! ### Specification -/

/-- Lower case hexadecimal digit. -/
def hexDigit (n : Nat) : BitVec 8 :=
  if n < 10 then BitVec.ofNat 8 ('0'.toNat + n) else BitVec.ofNat 8 ('a'.toNat + (n - 10))

/-- The escaping of the JNI specification for a character code: ASCII letters and digits stay, `/`
becomes `_`, the three special characters get two byte escapes, everything else is `_0xxxx`. -/
def jniEscape (code : Nat) : List (BitVec 8) :=
  if code = '/'.toNat then [ch '_']
  else if code = '_'.toNat then [ch '_', ch '1']
  else if code = ';'.toNat then [ch '_', ch '2']
  else if code = '['.toNat then [ch '_', ch '3']
  else if ('a'.toNat ≤ code ∧ code ≤ 'z'.toNat) ∨ ('A'.toNat ≤ code ∧ code ≤ 'Z'.toNat) ∨
      ('0'.toNat ≤ code ∧ code ≤ '9'.toNat) then [BitVec.ofNat 8 code]
  else [ch '_', ch '0', hexDigit (code / 4096 % 16), hexDigit (code / 256 % 16),
    hexDigit (code / 16 % 16), hexDigit (code % 16)]

/-- The part of the descriptor between the parentheses. -/
def arguments (spec : List (BitVec 8)) : List (BitVec 8) :=
  (spec.drop 1).takeWhile (· ≠ ch ')')

/-- The escaped form of a name. -/
def mangleAll (l : List (BitVec 8)) : List (BitVec 8) := l.flatMap mangle

/-- The symbol name of a method. -/
def symbol (pre : List (BitVec 8)) (m : Method) (decorate : Bool) : List (BitVec 8) :=
  pre ++ mangleAll m.className ++ [ch '_'] ++ mangleAll m.name ++
    (if decorate then [ch '_', ch '_'] ++ mangleAll (arguments m.spec) else [])

/-! ### Length -/

private theorem mangle_length : ∀ c : BitVec 8, (mangle c).length = mangledSize c := by
  decide

private theorem mangle_length_le : ∀ c : BitVec 8, 1 ≤ (mangle c).length := by
  decide

private theorem sizeLoop_eq (l : List (BitVec 8)) : ∀ n, sizeLoop l n = n + (mangleAll l).length := by
  induction l with
  | nil => intro n; rfl
  | cons c t ih =>
    intro n
    simp only [sizeLoop, ih, mangleAll, List.flatMap_cons, List.length_append, mangle_length]
    omega

private theorem specSizeLoop_eq (l : List (BitVec 8)) : ∀ n,
    specSizeLoop l n = n + (mangleAll (l.takeWhile (· ≠ ch ')'))).length := by
  induction l with
  | nil => intro n; rfl
  | cons c t ih =>
    intro n
    by_cases h : c = ch ')'
    · simp [specSizeLoop, h, mangleAll]
    · rw [specSizeLoop, if_neg h, ih, List.takeWhile_cons, if_pos (by simpa using h), mangleAll,
        mangleAll, List.flatMap_cons, List.length_append, mangle_length]
      omega

private theorem length_symbol (pre : List (BitVec 8)) (m : Method) (decorate : Bool) :
    (symbol pre m decorate).length = pre.length + jniNameLength m decorate := by
  cases decorate <;>
    simp [symbol, jniNameLength, sizeLoop_eq, specSizeLoop_eq, arguments] <;> omega

private theorem put_some {cap : Nat} {out bytes : List (BitVec 8)}
    (h : out.length + bytes.length ≤ cap) : put cap out bytes = some (out ++ bytes) := by
  simp [put, h]

private theorem mangleLoop_eq (cap : Nat) (l : List (BitVec 8)) : ∀ out,
    out.length + (mangleAll l).length ≤ cap → mangleLoop cap l out = some (out ++ mangleAll l) := by
  induction l with
  | nil => intro out _; simp [mangleLoop, mangleAll]
  | cons c t ih =>
    intro out h
    simp only [mangleAll, List.flatMap_cons, List.length_append] at h
    rw [mangleLoop, put_some (by omega), Option.bind_some, ih _ (by simp only [mangleAll, List.length_append]; omega)]
    simp [mangleAll]

private theorem specMangleLoop_eq (cap : Nat) (l : List (BitVec 8)) : ∀ out,
    out.length + (mangleAll (l.takeWhile (· ≠ ch ')'))).length ≤ cap →
    specMangleLoop cap l out = some (out ++ mangleAll (l.takeWhile (· ≠ ch ')'))) := by
  induction l with
  | nil => intro out _; simp [specMangleLoop, mangleAll]
  | cons c t ih =>
    intro out h
    by_cases hc : c = ch ')'
    · simp [specMangleLoop, hc, mangleAll]
    · rw [List.takeWhile_cons, if_pos (by simpa using hc)] at h ⊢
      simp only [mangleAll, List.flatMap_cons, List.length_append] at h
      rw [specMangleLoop, if_neg hc, put_some (by omega), Option.bind_some,
        ih _ (by simp only [mangleAll, List.length_append]; omega)]
      simp [mangleAll]

/-- C48: a buffer of the computed length plus one byte for the terminator is never overrun, and it
is filled exactly. -/
theorem name_fits (pre : List (BitVec 8)) (m : Method) (decorate : Bool) (cap : Nat)
    (h : pre.length + jniNameLength m decorate + 1 ≤ cap) :
    makeJNIName cap pre m decorate = some (symbol pre m decorate ++ [0#8]) ∧
    (symbol pre m decorate).length = pre.length + jniNameLength m decorate := by
  have hl := length_symbol pre m decorate
  refine ⟨?_, hl⟩
  rw [← hl] at h
  clear hl
  cases decorate with
  | false =>
    simp only [symbol, List.length_append, List.length_singleton, Bool.false_eq_true, if_false,
      List.length_nil] at h
    rw [makeJNIName, put_some (by simp; omega), Option.bind_some,
      mangleLoop_eq _ _ _ (by simp; omega), Option.bind_some, put_some (by simp; omega),
      Option.bind_some, mangleLoop_eq _ _ _ (by simp; omega), Option.bind_some]
    simp only [Bool.false_eq_true, if_false, Option.bind_some]
    rw [put_some (by simp; omega)]
    simp [symbol]
  | true =>
    simp only [symbol, List.length_append, List.length_singleton, if_true, arguments,
      List.length_cons, List.length_nil] at h
    rw [makeJNIName, put_some (by simp; omega), Option.bind_some,
      mangleLoop_eq _ _ _ (by simp; omega), Option.bind_some, put_some (by simp; omega),
      Option.bind_some, mangleLoop_eq _ _ _ (by simp; omega), Option.bind_some]
    simp only [if_true]
    rw [put_some (by simp; omega), Option.bind_some, put_some (by simp; omega), Option.bind_some,
      specMangleLoop_eq _ _ _ (by simp only [List.length_append, List.length_cons, List.length_nil]; omega),
      Option.bind_some, put_some (by simp only [List.length_append, List.length_cons, List.length_nil]; omega)]
    simp [symbol, arguments]

/-- C48: the buffers the resolver reserves are large enough for every method. -/
theorem resolver_never_overruns (pre : List (BitVec 8)) (m : Method) (decorate : Bool) :
    makeJNIName (bufferCapacity pre m decorate) pre m decorate =
      some (symbol pre m decorate ++ [0#8]) :=
  (name_fits pre m decorate _ (by unfold bufferCapacity; omega)).1

/-- Bytes of an ASCII string. -/
def bytes (s : String) : List (BitVec 8) := s.toList.map ch

/-- `a/B$C.d_e([Lx/Y;I)V`. -/
def sample : Method := ⟨bytes "a/B$C", bytes "d_e", bytes "([Lx/Y;I)V"⟩

example : makeJNIName 38 (bytes "Java_") sample true
    = some (bytes "Java_a_B_00024C_d_1e___3Lx_Y_2I" ++ [0#8]) := by decide +kernel

/-! ### Escaping -/

/-- C48: bytes that can be part of an ASCII Java name or descriptor are escaped as the JNI
specification says. -/
theorem escape_matches_jni_partial (c : BitVec 8)
    (h : (ch 'a' ≤ c ∧ c ≤ ch 'z') ∨ (ch 'A' ≤ c ∧ c ≤ ch 'Z') ∨ (ch '0' ≤ c ∧ c ≤ ch '9') ∨
      c = ch '/' ∨ c = ch '_' ∨ c = ch ';' ∨ c = ch '[' ∨ c = ch '$') :
    mangle c = jniEscape c.toNat := by
  revert c
  decide +kernel

example : mangle (ch '$') = jniEscape 0x24 := by decide

/-- C48 (violation): a character outside ASCII is copied byte by byte instead of being written
as `_0xxxx`; so is a character such as `-` that class files allow. -/
theorem non_ascii_not_escaped : (∀ c : BitVec 8, 0x80#8 ≤ c → mangle c = [c]) ∧
    mangle (ch '-') ≠ jniEscape '-'.toNat := by
  constructor <;> decide +kernel

/-! ### Unambiguity -/

/-- Digits that would be mistaken for an escape after a `/`. -/
def escDigit (c : BitVec 8) : Bool := c = ch '0' || c = ch '1' || c = ch '2' || c = ch '3'

/-- No path segment starts with one of the digits 0 to 3 (true of every Java identifier). -/
def SegmentsOk : List (BitVec 8) → Prop
  | [] => True
  | [_] => True
  | a :: b :: rest => (a = ch '/' → escDigit b = false) ∧ SegmentsOk (b :: rest)

/-- Reads an escaped name back. -/
def demangle : List (BitVec 8) → List (BitVec 8)
  | [] => []
  | [a] => if a = ch '_' then [ch '/'] else [a]
  | a :: b :: rest =>
    if a = ch '_' then
      if b = ch '1' then ch '_' :: demangle rest
      else if b = ch '2' then ch ';' :: demangle rest
      else if b = ch '3' then ch '[' :: demangle rest
      else if b = ch '0' then ch '$' :: demangle (rest.drop 4)
      else ch '/' :: demangle (b :: rest)
    else a :: demangle (b :: rest)
termination_by l => l.length
decreasing_by all_goals simp <;> omega

private theorem mangle_head (c : BitVec 8) : ∃ r, mangle c =
    (if c = ch '/' ∨ c = ch '_' ∨ c = ch ';' ∨ c = ch '[' ∨ c = ch '$' then ch '_' else c) :: r := by
  refine ⟨(mangle c).tail, ?_⟩
  revert c
  decide +kernel

private theorem escDigit_head (c : BitVec 8) (h : escDigit c = false) :
    escDigit (if c = ch '/' ∨ c = ch '_' ∨ c = ch ';' ∨ c = ch '[' ∨ c = ch '$' then ch '_' else c)
      = false := by
  revert c; decide +kernel

private theorem mangle_other (c : BitVec 8) (h1 : c ≠ ch '/') (h2 : c ≠ ch '_') (h3 : c ≠ ch ';')
    (h4 : c ≠ ch '[') (h5 : c ≠ ch '$') : mangle c = [c] := by
  simp [mangle, h1, h2, h3, h4, h5]

private theorem demangle_plain (c : BitVec 8) (l : List (BitVec 8)) (h : c ≠ ch '_') :
    demangle (c :: l) = c :: demangle l := by
  cases l with
  | nil => simp [demangle, h]
  | cons b t => rw [demangle, if_neg h]

private theorem demangle_esc (b : BitVec 8) (l : List (BitVec 8)) :
    demangle (ch '_' :: b :: l) =
      if b = ch '1' then ch '_' :: demangle l
        else if b = ch '2' then ch ';' :: demangle l
        else if b = ch '3' then ch '[' :: demangle l
        else if b = ch '0' then ch '$' :: demangle (l.drop 4)
        else ch '/' :: demangle (b :: l) := by
  rw [demangle, if_pos rfl]

private theorem demangle_mangleAll : ∀ l : List (BitVec 8), SegmentsOk l →
    demangle (mangleAll l) = l := by
  intro l
  induction l with
  | nil => intro _; simp [mangleAll, demangle]
  | cons c t ih =>
    intro h
    have ht : SegmentsOk t := by
      cases t with
      | nil => trivial
      | cons b r => exact h.2
    have ih := ih ht
    show demangle (mangle c ++ mangleAll t) = c :: t
    by_cases h1 : c = ch '/'
    · subst h1
      have hm : mangle (ch '/') = [ch '_'] := by decide
      rw [hm]
      cases t with
      | nil => simp [mangleAll, demangle]
      | cons b r =>
        have hb : escDigit b = false := h.1 rfl
        obtain ⟨r', hr⟩ := mangle_head b
        have hd := escDigit_head b hb
        have hall : mangleAll (b :: r) = (if b = ch '/' ∨ b = ch '_' ∨ b = ch ';' ∨ b = ch '[' ∨
            b = ch '$' then ch '_' else b) :: (r' ++ mangleAll r) := by
          rw [mangleAll, List.flatMap_cons, hr]; rfl
        rw [hall] at ih ⊢
        generalize (if b = ch '/' ∨ b = ch '_' ∨ b = ch ';' ∨ b = ch '[' ∨
            b = ch '$' then ch '_' else b) = x at *
        simp only [escDigit, Bool.or_eq_false_iff, decide_eq_false_iff_not] at hd
        rw [List.singleton_append, demangle_esc, if_neg hd.1.1.2, if_neg hd.1.2, if_neg hd.2,
          if_neg hd.1.1.1, ih]
    · by_cases h2 : c = ch '_'
      · subst h2
        have hm : mangle (ch '_') = [ch '_', ch '1'] := by decide
        rw [hm, List.cons_append, List.cons_append, List.nil_append, demangle_esc, if_pos rfl, ih]
      · by_cases h3 : c = ch ';'
        · subst h3
          have hm : mangle (ch ';') = [ch '_', ch '2'] := by decide
          rw [hm, List.cons_append, List.cons_append, List.nil_append, demangle_esc,
            if_neg (by decide), if_pos rfl, ih]
        · by_cases h4 : c = ch '['
          · subst h4
            have hm : mangle (ch '[') = [ch '_', ch '3'] := by decide
            rw [hm, List.cons_append, List.cons_append, List.nil_append, demangle_esc,
              if_neg (by decide), if_neg (by decide), if_pos rfl, ih]
          · by_cases h5 : c = ch '$'
            · subst h5
              have hm : mangle (ch '$') = [ch '_', ch '0', ch '0', ch '0', ch '2', ch '4'] := by decide
              rw [hm]
              simp only [List.cons_append, List.nil_append]
              rw [demangle_esc, if_neg (by decide), if_neg (by decide), if_neg (by decide),
                if_pos rfl]
              simp only [List.drop_succ_cons, List.drop_zero, ih]
            · rw [mangle_other c h1 h2 h3 h4 h5, List.singleton_append, demangle_plain c _ h2, ih]

/-- C48: two different names whose segments do not start with the digits 0 to 3 are escaped
differently. -/
theorem mangle_injective_partial (a b : List (BitVec 8)) (ha : SegmentsOk a) (hb : SegmentsOk b)
    (h : mangleAll a = mangleAll b) : a = b := by
  rw [← demangle_mangleAll a ha, ← demangle_mangleAll b hb, h]

/-- C48 (violation for arbitrary names): `a/1b` and `a_b` are escaped to the same text; class files
allow both. -/
theorem mangle_not_injective : mangleAll (bytes "a/1b") = mangleAll (bytes "a_b") := by decide

/-- A well-formed method: Java identifiers separated by single slashes, a method name without
slash, and a descriptor whose arguments do not start with a slash. -/
structure JavaNames (m : Method) : Prop where
  cls : SegmentsOk m.className
  clsNe : m.className ≠ []
  noDouble : ¬ [ch '/', ch '/'] <:+: m.className
  clsLast : m.className.getLast? ≠ some (ch '/')
  name : ch '/' ∉ m.name
  nameNe : m.name ≠ []
  nameDigit : ∀ b, m.name.head? = some b → escDigit b = false
  args : SegmentsOk (arguments m.spec)
  argsDigit : ∀ b, (arguments m.spec).head? = some b → escDigit b = false

private theorem SegmentsOk_append : ∀ (a b : List (BitVec 8)), SegmentsOk a → SegmentsOk b →
    (∀ x, b.head? = some x → escDigit x = false) → SegmentsOk (a ++ b) := by
  intro a
  induction a with
  | nil => intro b _ h _; exact h
  | cons x t ih =>
    intro b ha hb hd
    cases t with
    | nil =>
      cases b with
      | nil => trivial
      | cons y r => exact ⟨fun _ => hd y rfl, hb⟩
    | cons y r => exact ⟨ha.1, ih b ha.2 hb hd⟩

private theorem SegmentsOk_noSlash : ∀ (a : List (BitVec 8)), ch '/' ∉ a → SegmentsOk a := by
  intro a
  induction a with
  | nil => intro _; trivial
  | cons x t ih =>
    intro h
    cases t with
    | nil => trivial
    | cons y r =>
      refine ⟨fun hx => absurd (by simp [hx]) h, ih (fun hm => h (List.mem_cons_of_mem _ hm))⟩

/-- The path form of a symbol: escaping it gives the symbol without its prefix. -/
private def path (m : Method) (decorate : Bool) : List (BitVec 8) :=
  m.className ++ (ch '/' :: (m.name ++ (if decorate then ch '/' :: ch '/' :: arguments m.spec else [])))

private theorem symbol_path (pre : List (BitVec 8)) (m : Method) (d : Bool) :
    symbol pre m d = pre ++ mangleAll (path m d) := by
  have hm : mangle (ch '/') = [ch '_'] := by decide
  cases d <;> simp [symbol, path, mangleAll, List.flatMap_append, hm]

private theorem path_ok (m : Method) (d : Bool) (h : JavaNames m) : SegmentsOk (path m d) := by
  have hs : escDigit (ch '/') = false := by decide
  refine SegmentsOk_append _ _ h.cls ?_ (by intro x hx; simp at hx; subst hx; exact hs)
  refine SegmentsOk_append [ch '/'] _ trivial ?_ ?_
  · cases d with
    | false => simpa using SegmentsOk_noSlash _ h.name
    | true =>
      simp only [if_true]
      refine SegmentsOk_append _ _ (SegmentsOk_noSlash _ h.name) ?_
        (by intro x hx; simp at hx; subst hx; exact hs)
      refine SegmentsOk_append [ch '/'] _ trivial ?_
        (by intro x hx; simp at hx; subst hx; exact hs)
      exact SegmentsOk_append [ch '/'] _ trivial h.args h.argsDigit
  · intro x hx
    have hne := h.nameNe
    cases hn : m.name with
    | nil => exact absurd hn hne
    | cons y r =>
      rw [hn] at hx
      refine h.nameDigit x ?_
      simp at hx
      simp [hn, hx]

private theorem split_last {a a' b b' : List (BitVec 8)} (hb : ch '/' ∉ b) (hb' : ch '/' ∉ b')
    (h : a ++ ch '/' :: b = a' ++ ch '/' :: b') : a = a' ∧ b = b' := by
  have hr := congrArg List.reverse h
  simp only [List.reverse_append, List.reverse_cons, List.append_assoc, List.singleton_append] at hr
  have key : ∀ (x y x' y' : List (BitVec 8)), ch '/' ∉ x → ch '/' ∉ x' →
      x ++ ch '/' :: y = x' ++ ch '/' :: y' → x = x' ∧ y = y' := by
    intro x
    induction x with
    | nil =>
      intro y x' y' _ hx' h
      cases x' with
      | nil => simpa using h
      | cons z r => simp at h; exact absurd (by simp [h.1]) hx'
    | cons z r ih =>
      intro y x' y' hx hx' h
      cases x' with
      | nil => simp at h; exact absurd (by simp [h.1]) hx
      | cons z' r' =>
        simp at h
        obtain ⟨p, q⟩ := ih y r' y' (fun hm => hx (List.mem_cons_of_mem _ hm))
          (fun hm => hx' (List.mem_cons_of_mem _ hm)) h.2
        exact ⟨by rw [h.1, p], q⟩
  obtain ⟨p, q⟩ := key _ _ _ _ (by simpa using hb) (by simpa using hb') hr
  exact ⟨List.reverse_inj.mp q, List.reverse_inj.mp p⟩

/-- C48: among methods with Java names, two short symbols with the same prefix are equal only if
class and method names are equal. -/
theorem short_symbol_unambiguous (pre : List (BitVec 8)) (m m' : Method) (h : JavaNames m)
    (h' : JavaNames m') (he : symbol pre m false = symbol pre m' false) :
    m.className = m'.className ∧ m.name = m'.name := by
  rw [symbol_path, symbol_path] at he
  have hp := mangle_injective_partial _ _ (path_ok m false h) (path_ok m' false h')
    (List.append_cancel_left he)
  simp only [path, Bool.false_eq_true, if_false, List.append_nil] at hp
  exact split_last h.name h'.name hp

private theorem split_double : ∀ (x y x' y' : List (BitVec 8)),
    ¬ [ch '/', ch '/'] <:+: x → ¬ [ch '/', ch '/'] <:+: x' →
    x.getLast? ≠ some (ch '/') → x'.getLast? ≠ some (ch '/') →
    x ++ ch '/' :: ch '/' :: y = x' ++ ch '/' :: ch '/' :: y' → x = x' ∧ y = y' := by
  intro x
  induction x with
  | nil =>
    intro y x' y' _ hx' _ hl' h
    cases x' with
    | nil => simpa using h
    | cons z r =>
      cases r with
      | nil => simp at h; exact absurd (by simp [h.1]) hl'
      | cons w r' =>
        simp at h
        refine absurd ⟨[], r', ?_⟩ hx'
        simp [← h.1, ← h.2.1]
  | cons z r ih =>
    intro y x' y' hx hx' hl hl' h
    cases x' with
    | nil =>
      cases r with
      | nil => simp at h; exact absurd (by simp [h.1]) hl
      | cons w r' =>
        simp at h
        refine absurd ⟨[], r', ?_⟩ hx
        simp [h.1, h.2.1]
    | cons z' r' =>
      simp at h
      have key : ∀ (q : BitVec 8) (l : List (BitVec 8)), (q :: l).getLast? ≠ some (ch '/') →
          l.getLast? ≠ some (ch '/') := by
        intro q l h1 h2
        cases l with
        | nil => simp at h2
        | cons a b => simp only [List.getLast?_cons_cons] at h1; exact h1 h2
      obtain ⟨p, q⟩ := ih y r' y' (fun hi => hx (hi.trans (List.suffix_cons _ _).isInfix))
        (fun hi => hx' (hi.trans (List.suffix_cons _ _).isInfix)) (key _ _ hl) (key _ _ hl') h.2
      exact ⟨by rw [h.1, p], q⟩

private theorem infix_noSlash (a b : List (BitVec 8)) (ha : ¬ [ch '/', ch '/'] <:+: a)
    (hl : a.getLast? ≠ some (ch '/')) (hb : ch '/' ∉ b) :
    ¬ [ch '/', ch '/'] <:+: (a ++ ch '/' :: b) := by
  induction a with
  | nil =>
    rintro ⟨s, t, h⟩
    cases s with
    | nil =>
      simp at h
      exact hb (by rw [← h]; simp)
    | cons z r =>
      simp at h
      refine hb ?_
      rw [← h.2]; simp
  | cons x r ih =>
    rintro ⟨s, t, h⟩
    have hl2 : r.getLast? ≠ some (ch '/') := by
      intro h2
      cases r with
      | nil => simp at h2
      | cons a b => simp only [List.getLast?_cons_cons] at hl; exact hl h2
    cases s with
    | nil =>
      cases r with
      | nil => simp at h; exact hl (by simp [h.1])
      | cons w r' =>
        simp at h
        refine ha ⟨[], r', ?_⟩
        simp [← h.1, ← h.2.1]
    | cons z s' =>
      simp at h
      exact ih (fun hi => ha (hi.trans (List.suffix_cons _ _).isInfix)) hl2
        ⟨s', t, by simpa using h.2⟩

/-- C48: two long symbols are equal only if class, method name and argument types are equal. -/
theorem long_symbol_unambiguous (pre : List (BitVec 8)) (m m' : Method) (h : JavaNames m)
    (h' : JavaNames m') (he : symbol pre m true = symbol pre m' true) :
    m.className = m'.className ∧ m.name = m'.name ∧ arguments m.spec = arguments m'.spec := by
  rw [symbol_path, symbol_path] at he
  have hp := mangle_injective_partial _ _ (path_ok m true h) (path_ok m' true h')
    (List.append_cancel_left he)
  simp only [path, if_true] at hp
  have last : ∀ m : Method, JavaNames m → (m.className ++ ch '/' :: m.name).getLast? ≠ some (ch '/') := by
    intro m h hl
    have : (ch '/' :: m.name).getLast? = some (ch '/') := by
      simpa using hl
    have hne := h.nameNe
    cases hn : m.name with
    | nil => exact hne hn
    | cons a b =>
      rw [hn, List.getLast?_cons_cons] at this
      exact h.name (hn ▸ List.mem_of_getLast? this)
  obtain ⟨p, q⟩ := split_double (m.className ++ ch '/' :: m.name) (arguments m.spec)
    (m'.className ++ ch '/' :: m'.name) (arguments m'.spec)
    (infix_noSlash _ _ h.noDouble h.clsLast h.name)
    (infix_noSlash _ _ h'.noDouble h'.clsLast h'.name)
    (last m h) (last m' h') (by simpa using hp)
  obtain ⟨r, s⟩ := split_last h.name h'.name p
  exact ⟨r, s, q⟩

private theorem not_infix_of_any (l : List (BitVec 8))
    (h : (l.zip l.tail).any (fun p => p.1 = ch '/' && p.2 = ch '/') = false) :
    ¬ [ch '/', ch '/'] <:+: l := by
  rintro ⟨s, t, rfl⟩
  rw [List.any_eq_false] at h
  refine h (ch '/', ch '/') ?_ (by simp)
  rw [List.mem_iff_getElem]
  refine ⟨s.length, by simp, ?_⟩
  simp

example : JavaNames sample where
  cls := by refine ⟨by decide, by decide, by decide, by decide, trivial⟩
  clsNe := by decide
  noDouble := not_infix_of_any _ (by decide +kernel)
  clsLast := by decide
  name := by decide
  nameNe := by decide
  nameDigit := by intro b h; cases h; decide
  args := by refine ⟨by decide, by decide, by decide, by decide, by decide, by decide, trivial⟩
  argsDigit := by intro b h; cases h; decide

/-! ### Resolution order -/

/-- C48: the first library that knows either name decides, and within it the short name wins. -/
theorem resolve_first (libs : List (List (BitVec 8) → Option Nat)) (u d : List (BitVec 8)) :
    resolveIn libs u d = (libs.filterMap fun lib => (lib u).or (lib d)).head? := by
  induction libs with
  | nil => rfl
  | cons lib rest ih =>
    rw [resolveIn]
    cases h1 : lib u with
    | some p => simp [h1]
    | none =>
      cases h2 : lib d with
      | some p => simp [h1, h2]
      | none => simp [h1, h2, ih]

example : resolveIn [fun n => if n = bytes "long" then some 1 else none,
    fun n => if n = bytes "short" then some 2 else none] (bytes "short") (bytes "long") = some 1 := by
  decide

end Avian.JniName
