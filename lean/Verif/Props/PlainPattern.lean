import Verif.Lib.PlainPattern
import Verif.Props.Regex

/-
C100: splitting and replacing.

`Cut w n s ps` says what the pieces of `s` are if it is cut at the first `n` occurrences of `w`, from left to right.  What `split`,
`replaceAll` and `replaceFirst` are to give is said with these pieces.
-/
namespace Avian.PlainPattern

/-! ### What is to be -/

/-- `ps` are the pieces of the text if it is cut at the first `n` occurrences of `w`, each found behind the one before. -/
inductive Cut (w : List Nat) : Nat → List Nat → List (List Nat) → Prop
  | enough {s : List Nat} : Cut w 0 s [s]
  | none {n : Nat} {s : List Nat} : (∀ k, ¬ w <+: s.drop k) → Cut w n s [s]
  | cut {n : Nat} {a rest : List Nat} {ps : List (List Nat)} :
      (∀ k, k < a.length → ¬ w <+: (a ++ w ++ rest).drop k) → Cut w n rest ps → Cut w (n + 1) (a ++ w ++ rest) (a :: ps)

/-- The pieces with `r` between them. -/
def join (r : List Nat) : List (List Nat) → List Nat
  | [] => []
  | [p] => p
  | p :: q :: ps => p ++ r ++ join r (q :: ps)

/-- Without the empty pieces at the end. -/
def strip (ps : List (List Nat)) : List (List Nat) := (ps.reverse.dropWhile (fun p => p.isEmpty)).reverse

/-- How many cuts a limit allows (java.util.regex.Pattern.split): one fewer than there are pieces, or as many as there can be. -/
def cuts (limit : Int) (s : List Nat) : Nat := if limit ≤ 0 then s.length else limit.toNat - 1

/-! ### Occurrences -/

theorem ok_bind {A B : Type} (a : A) (f : A → R B) : (Except.ok a : R A).bind f = f a := rfl

theorem charAt_ok {s : List Nat} {i : Nat} (h : i < s.length) : charAt s i = .ok s[i] := by
  unfold charAt
  rw [List.getElem?_eq_getElem h]

theorem subSequence_ok {s : List Nat} {a b : Nat} (h1 : a ≤ b) (h2 : b ≤ s.length) : subSequence s a b = .ok ((s.drop a).take (b - a)) := by
  unfold subSequence
  rw [if_neg (by omega)]

theorem subSequence_rest {s : List Nat} {a : Nat} (h1 : a ≤ s.length) : subSequence s a s.length = .ok (s.drop a) := by
  rw [subSequence_ok h1 (Nat.le_refl _), List.take_of_length_le (by simp)]

theorem same_ok {s w : List Nat} {i : Nat} (hi : i + w.length ≤ s.length) : ∀ n j, j + n = w.length →
    same s w i n j = .ok (decide (w.drop j <+: s.drop (i + j)))
  | 0, j, hj => by
    rw [same, List.drop_of_length_le (by omega)]
    simp
  | n + 1, j, hj => by
    rw [same, charAt_ok (by omega), ok_bind, charAt_ok (by omega), ok_bind, List.drop_eq_getElem_cons (by omega : j < w.length),
      List.drop_eq_getElem_cons (by omega : i + j < s.length)]
    by_cases h : s[i + j] = w[j]
    · rw [if_neg (by simp [h]), same_ok hi n (j + 1) (by omega), h]
      simp only [List.cons_prefix_cons, true_and, Nat.add_assoc]
    · rw [if_pos h]
      simp only [List.cons_prefix_cons]
      congr 1
      symm
      rw [decide_eq_false_iff_not]
      rintro ⟨h', _⟩
      exact h h'.symm

/-- What `indexOf` is to answer. -/
def First (s w : List Nat) (start : Nat) : Option Nat → Prop
  | some i => start ≤ i ∧ w <+: s.drop i ∧ ∀ k, start ≤ k → k < i → ¬ w <+: s.drop k
  | none => ∀ k, start ≤ k → ¬ w <+: s.drop k

theorem prefix_fits {s w : List Nat} {k : Nat} (h : w <+: s.drop k) (hw : w ≠ []) : k + w.length ≤ s.length := by
  have h1 := h.length_le
  have h2 : 0 < w.length := List.length_pos_iff.2 hw
  simp only [List.length_drop] at h1
  omega

theorem indexLoop_ok {s w : List Nat} (hw : w ≠ []) : ∀ n i, n = s.length + 1 - w.length - i →
    ∃ r, indexLoop s w n i = .ok r ∧ First s w i r
  | 0, i, hn => by
    refine ⟨none, rfl, fun k hk h => ?_⟩
    have := prefix_fits h hw
    omega
  | n + 1, i, hn => by
    rw [indexLoop, same_ok (s := s) (w := w) (by omega) w.length 0 (by omega), ok_bind]
    simp only [List.drop_zero, Nat.add_zero]
    by_cases h : w <+: s.drop i
    · rw [if_pos (by simpa using h)]
      exact ⟨_, rfl, Nat.le_refl _, h, fun k h1 h2 => by omega⟩
    · rw [if_neg (by simpa using h)]
      obtain ⟨r, h1, h2⟩ := indexLoop_ok (s := s) hw n (i + 1) (by omega)
      refine ⟨r, h1, ?_⟩
      cases r with
      | none =>
        intro k hk
        by_cases he : k = i
        · rw [he]; exact h
        · exact h2 k (by omega)
      | some j =>
        refine ⟨by have := h2.1; omega, h2.2.1, fun k hk hj => ?_⟩
        by_cases he : k = i
        · rw [he]; exact h
        · exact h2.2.2 k (by omega) hj

theorem indexOf_ok {s w : List Nat} (hw : w ≠ []) (start : Nat) : ∃ r, indexOf s w start = .ok r ∧ First s w start r := by
  unfold indexOf
  rw [if_neg (by rw [List.length_eq_zero_iff]; exact hw)]
  exact indexLoop_ok hw _ _ rfl

/-- `find` from a position gives the first occurrence from there on, and none if there is none. -/
theorem plain_find {w s : List Nat} (hw : w ≠ []) (start : Nat) :
    (∃ i, plainFind w s start = .ok (some (i, i + w.length)) ∧ start ≤ i ∧ w <+: s.drop i ∧ ∀ k, start ≤ k → k < i → ¬ w <+: s.drop k) ∨
    (plainFind w s start = .ok none ∧ ∀ k, start ≤ k → ¬ w <+: s.drop k) := by
  obtain ⟨r, h1, h2⟩ := indexOf_ok (s := s) hw start
  unfold plainFind
  rw [h1, ok_bind]
  cases r with
  | none => exact .inr ⟨rfl, h2⟩
  | some i => exact .inl ⟨i, rfl, h2⟩

/-! ### The pieces -/

theorem Cut.ne_nil {w s : List Nat} {n : Nat} {ps : List (List Nat)} (h : Cut w n s ps) : ps ≠ [] := by
  cases h <;> simp

theorem join_cons {r p : List Nat} {ps : List (List Nat)} (h : ps ≠ []) : join r (p :: ps) = p ++ r ++ join r ps := by
  cases ps with
  | nil => exact absurd rfl h
  | cons q qs => rfl

/-- The pieces with the pattern between them are the text. -/
theorem cut_join {w s : List Nat} {n : Nat} {ps : List (List Nat)} (h : Cut w n s ps) : join w ps = s := by
  induction h with
  | enough => rfl
  | none => rfl
  | cut _ h ih => rw [join_cons h.ne_nil, ih]

/-- There is one way only to cut a text. -/
theorem cut_unique {w s : List Nat} (hw : w ≠ []) {n : Nat} {ps qs : List (List Nat)} (h : Cut w n s ps) (h' : Cut w n s qs) : ps = qs := by
  induction h generalizing qs with
  | enough =>
    cases h' with
    | enough => rfl
    | none => rfl
  | none hno =>
    cases h' with
    | enough => rfl
    | none => rfl
    | @cut _ a rest _ _ _ => exact absurd ⟨rest, by simp⟩ (hno a.length)
  | @cut n a rest ps hfirst hrest ih =>
    generalize hs : a ++ w ++ rest = s at h'
    cases h' with
    | none hno => exact absurd ⟨rest, by simp⟩ (hs ▸ hno a.length)
    | @cut _ b rest' qs hfirst' hrest' =>
      have hlen : a.length = b.length := by
        rcases Nat.lt_trichotomy a.length b.length with h | h | h
        · exact absurd ⟨rest, by simp⟩ (hs ▸ hfirst' a.length h)
        · exact h
        · exact absurd ⟨rest', by simp⟩ (hs.symm ▸ hfirst b.length h)
      simp only [List.append_assoc] at hs
      obtain ⟨h1, h2⟩ := List.append_inj hs hlen
      have h3 := List.append_cancel_left h2
      subst h1 h3
      rw [ih hrest']

/-- No more pieces than allowed. -/
theorem cut_length {w s : List Nat} {n : Nat} {ps : List (List Nat)} (h : Cut w n s ps) : ps.length ≤ n + 1 := by
  induction h with
  | enough => simp
  | none => simp
  | cut _ _ ih => simpa using ih

/-- With as many cuts as there are characters, no piece has the pattern in it. -/
theorem cut_all {w s : List Nat} (hw : w ≠ []) {n : Nat} {ps : List (List Nat)} (h : Cut w n s ps) (hn : s.length ≤ n) :
    ∀ p ∈ ps, ∀ k, ¬ w <+: p.drop k := by
  have hw' : 0 < w.length := List.length_pos_iff.2 hw
  induction h with
  | @enough s =>
    intro p hp k hk
    have := prefix_fits hk hw
    simp only [List.mem_singleton] at hp
    subst hp
    omega
  | none hno =>
    intro p hp
    simp only [List.mem_singleton] at hp
    subst hp
    exact hno
  | @cut n a rest ps hfirst _ ih =>
    intro p hp k hk
    rcases List.mem_cons.1 hp with rfl | hp
    · have := prefix_fits hk hw
      refine hfirst k (by omega) ?_
      rw [List.append_assoc, List.drop_append_of_le_length (by omega)]
      exact hk.trans (List.prefix_append _ _)
    · simp only [List.length_append] at hn
      exact ih (by omega) p hp k hk

/-- One more step to the left. -/
theorem cut_step {w s : List Nat} {n i j : Nat} {ps : List (List Nat)} (hi : i ≤ j) (ho : w <+: s.drop j) (hw : w ≠ [])
    (hf : ∀ k, i ≤ k → k < j → ¬ w <+: s.drop k) (h : Cut w n (s.drop (j + w.length)) ps) :
    Cut w (n + 1) (s.drop i) ((s.drop i).take (j - i) :: ps) := by
  have hfit := prefix_fits ho hw
  have he : s.drop i = (s.drop i).take (j - i) ++ w ++ s.drop (j + w.length) := by
    obtain ⟨t, ht⟩ := ho
    have h1 : s.drop (j + w.length) = t := by
      rw [← List.drop_drop, ← ht, List.drop_left]
    rw [h1, List.append_assoc, ht]
    conv => lhs; rw [← List.take_append_drop (j - i) (s.drop i)]
    rw [List.drop_drop, show i + (j - i) = j by omega]
  conv => arg 3; rw [he]
  refine .cut (fun k hk => ?_) h
  rw [← he, List.drop_drop]
  simp only [List.length_take, List.length_drop] at hk
  exact hf _ (by omega) (by omega)

/-- Cuts beyond the number of characters do not matter. -/
theorem cut_more {w s : List Nat} (hw : w ≠ []) {n m : Nat} {ps : List (List Nat)} (h : Cut w n s ps) (hn : s.length ≤ n) (hm : s.length ≤ m) :
    Cut w m s ps := by
  have hw' : 0 < w.length := List.length_pos_iff.2 hw
  induction h generalizing m with
  | @enough s =>
    refine .none fun k hk => ?_
    have := prefix_fits hk hw
    omega
  | none hno => exact .none hno
  | @cut n a rest ps hfirst _ ih =>
    simp only [List.length_append] at hn hm
    obtain ⟨m, rfl⟩ : ∃ m', m = m' + 1 := ⟨m - 1, by omega⟩
    exact .cut hfirst (ih (by omega) (by omega))

/-! ### `split` -/

/-- How many empty pieces there are at the end. -/
def trailing (ps : List (List Nat)) : Nat := (ps.reverse.takeWhile (fun p => p.isEmpty)).length

theorem strip_eq (ps : List (List Nat)) : strip ps = ps.take (ps.length - trailing ps) := by
  unfold strip trailing
  have h := List.takeWhile_append_dropWhile (p := fun p : List Nat => p.isEmpty) (l := ps.reverse)
  have h2 : ps = (ps.reverse.dropWhile (fun p => p.isEmpty)).reverse ++ (ps.reverse.takeWhile (fun p => p.isEmpty)).reverse := by
    rw [← List.reverse_append, h, List.reverse_reverse]
  have hl := congrArg List.length h2
  simp only [List.length_append, List.length_reverse] at hl
  conv => rhs; arg 2; rw [h2]
  rw [List.take_append_of_le_length (by simp only [List.length_reverse]; omega), List.take_of_length_le (by simp only [List.length_reverse]; omega)]

theorem trailing_snoc (ps : List (List Nat)) (p : List Nat) : trailing (ps ++ [p]) = if p = [] then trailing ps + 1 else 0 := by
  unfold trailing
  rw [List.reverse_append]
  simp only [List.reverse_cons, List.reverse_nil, List.nil_append, List.singleton_append, List.takeWhile_cons]
  cases p <;> simp

theorem trailing_le (ps : List (List Nat)) : trailing ps ≤ ps.length := by
  unfold trailing
  have := (List.takeWhile_prefix (fun p : List Nat => p.isEmpty) (l := ps.reverse)).length_le
  simpa using this

/-- The loop of `split`: with the rest of the text as last piece, the pieces are those of the text. -/
theorem splitLoop_ok {w s : List Nat} (hw : w ≠ []) {limit : Nat} : ∀ fuel list index, s.length - index < fuel → index ≤ s.length →
    ∃ list' index' ps, splitLoop w s limit fuel list index (trailing list) = .ok (list ++ list', index', trailing (list ++ list')) ∧ index' ≤ s.length ∧
      ps = list' ++ [s.drop index'] ∧ Cut w (limit - 1 - list.length) (s.drop index) ps ∧ (list' = [] → index' = index) ∧ (list' ≠ [] → 0 < index')
  | 0, _, _, h, _ => by omega
  | fuel + 1, list, index, h, hi => by
    have hw' : 0 < w.length := List.length_pos_iff.2 hw
    rw [splitLoop]
    by_cases hc : index < s.length ∧ list.length < limit - 1
    · rw [if_pos hc, if_neg (by omega)]
      obtain ⟨r, h1, h2⟩ := indexOf_ok (s := s) hw index
      rw [h1, ok_bind]
      cases r with
      | none =>
        refine ⟨[], index, [s.drop index], ?_, hi, rfl, .none fun k hk => ?_, fun _ => rfl, fun h => absurd rfl h⟩
        · simp
        · rw [List.drop_drop] at hk
          exact h2 _ (by omega) hk
      | some j =>
        obtain ⟨ha, hb, hd⟩ := h2
        have hfit := prefix_fits hb hw
        simp only
        rw [subSequence_ok ha (by omega), ok_bind]
        have ht : (if w.length ≠ 0 ∧ j = index then trailing list + 1 else 0) = trailing (list ++ [(s.drop index).take (j - index)]) := by
          rw [trailing_snoc]
          by_cases he : j = index
          · rw [if_pos ⟨by omega, he⟩, if_pos (by simp [he])]
          · rw [if_neg (fun h => he h.2), if_neg]
            intro h0
            have := congrArg List.length h0
            simp only [List.length_take, List.length_drop, List.length_nil] at this
            omega
        rw [ht]
        obtain ⟨l', i', ps, e1, e2, e3, e4, e5, e6⟩ := splitLoop_ok hw (limit := limit) fuel (list ++ [(s.drop index).take (j - index)]) (j + w.length)
          (by omega) hfit
        refine ⟨(s.drop index).take (j - index) :: l', i', (s.drop index).take (j - index) :: ps, ?_, e2, by rw [e3]; rfl, ?_, by simp, fun _ => ?_⟩
        · rw [e1]
          simp
        · have := cut_step ha hb hw hd e4
          simp only [List.length_append, List.length_cons, List.length_nil] at this
          rwa [show limit - 1 - (list.length + (0 + 1)) + 1 = limit - 1 - list.length by omega] at this
        · by_cases hl : l' = []
          · rw [e5 hl]; omega
          · exact e6 hl
    · rw [if_neg hc]
      refine ⟨[], index, [s.drop index], by simp, hi, rfl, ?_, fun _ => rfl, fun h => absurd rfl h⟩
      by_cases hl : list.length < limit - 1
      · have : index = s.length := by omega
        refine .none fun k hk => ?_
        have := prefix_fits hk hw
        simp only [List.length_drop] at this
        omega
      · rw [show limit - 1 - list.length = 0 by omega]
        exact .enough

/-- `split` with a plain pattern gives the pieces of the text: as many as the limit allows, all of them for a negative one, and all but the empty
ones at the end for zero; if the pattern does not occur, this is the text itself. -/
theorem split_ok {w s : List Nat} (hw : w ≠ []) (limit : Int) (hl : s.length + 1 < maxInt) :
    ∃ ps, Cut w (cuts limit s) s ps ∧ split w s limit = .ok (if limit = 0 ∧ ps.length ≠ 1 then strip ps else ps) := by
  obtain ⟨l', i', ps, e1, e2, e3, e4, e5, e6⟩ := splitLoop_ok (s := s) hw (limit := if limit ≤ 0 then maxInt else limit.toNat) (s.length + 2) [] 0
    (by omega) (Nat.zero_le _)
  have hcut : Cut w (cuts limit s) s ps := by
    unfold cuts
    by_cases h0 : limit ≤ 0
    · rw [if_pos h0] at e4 ⊢
      exact cut_more hw e4 (by simp only [List.drop_zero, List.length_nil]; omega) (Nat.le_refl _)
    · rw [if_neg h0] at e4 ⊢
      exact e4
  refine ⟨ps, hcut, ?_⟩
  unfold split
  rw [show (0 : Nat) = trailing [] from rfl, show trailing [] = 0 from rfl] at *
  have e1' : splitLoop w s (if limit ≤ 0 then maxInt else limit.toNat) (s.length + 2) [] 0 0 = .ok (l', i', trailing l') := by
    simpa using e1
  rw [e1', ok_bind]
  simp only
  rw [subSequence_rest e2, ok_bind, ← e3]
  by_cases h : limit = 0 ∧ 0 < i' ∧ i' = s.length
  · rw [if_pos h]
    have hne : l' ≠ [] := fun h0 => by have := e5 h0; omega
    have hp : ps.length ≠ 1 := by
      rw [e3]
      have := List.length_pos_iff.2 hne
      simp only [List.length_append, List.length_cons, List.length_nil]
      omega
    have ht : trailing l' + 1 = trailing ps := by
      rw [e3, trailing_snoc, if_pos (by rw [h.2.2]; simp)]
    rw [ht, if_neg (by have := trailing_le ps; omega), if_pos ⟨h.1, hp⟩, strip_eq]
  · rw [if_neg h, if_neg (by omega), Nat.sub_zero, List.take_length]
    by_cases h2 : limit = 0 ∧ ps.length ≠ 1
    · rw [if_pos h2]
      have hne : l' ≠ [] := by
        rintro rfl
        exact h2.2 (by rw [e3]; rfl)
      have hi : i' ≠ s.length := fun he => h ⟨h2.1, e6 hne, he⟩
      have ht : trailing ps = 0 := by
        rw [e3, trailing_snoc, if_neg]
        intro h0
        have := congrArg List.length h0
        simp only [List.length_drop, List.length_nil] at this
        omega
      rw [strip_eq, ht, Nat.sub_zero, List.take_length]
    · rw [if_neg h2]

/-! ### Replacing -/

theorem replaceLoop_ok {w s r : List Nat} (hw : w ≠ []) {limit : Nat} : ∀ fuel index count b, s.length - index < fuel → 0 < index → index ≤ s.length →
    ∃ ps, Cut w (limit - count) (s.drop index) ps ∧ replaceLoop (plainFind w s) s r limit fuel index count (some b) = .ok (b ++ join r ps)
  | 0, _, _, _, h, _, _ => by omega
  | fuel + 1, index, count, b, h, h0, hi => by
    have hw' : 0 < w.length := List.length_pos_iff.2 hw
    have hfin : replaceLoop.finish s index (some b) = .ok (b ++ s.drop index) := by
      unfold replaceLoop.finish
      by_cases hlt : index < s.length
      · rw [if_pos hlt]
        simp only
        rw [subSequence_rest hi, ok_bind]
      · rw [if_neg hlt, List.drop_of_length_le (by omega), List.append_nil]
    rw [replaceLoop]
    by_cases hc : count < limit ∧ index < s.length
    · rw [if_pos hc]
      rcases plain_find (s := s) hw index with ⟨j, h1, h2, h3, h4⟩ | ⟨h1, h2⟩
      · rw [h1, ok_bind]
        have hfit := prefix_fits h3 hw
        have hp : (if index < j then subSequence s index j else .ok []) = .ok ((s.drop index).take (j - index)) := by
          by_cases hlt : index < j
          · rw [if_pos hlt, subSequence_ok h2 (by omega)]
          · rw [if_neg hlt, show j - index = 0 by omega, List.take_zero]
        simp only
        rw [hp, ok_bind]
        obtain ⟨ps, e1, e2⟩ := replaceLoop_ok hw (limit := limit) fuel (j + w.length) (count + 1) (b ++ (s.drop index).take (j - index) ++ r) (by omega)
          (by omega) hfit
        refine ⟨(s.drop index).take (j - index) :: ps, ?_, ?_⟩
        · have := cut_step h2 h3 hw h4 e1
          rwa [show limit - (count + 1) + 1 = limit - count by omega] at this
        · rw [Option.getD_some, e2, join_cons e1.ne_nil]
          simp only [List.append_assoc]
      · rw [h1, ok_bind]
        simp only
        rw [if_neg (by omega), hfin]
        refine ⟨_, .none fun k hk => ?_, rfl⟩
        rw [List.drop_drop] at hk
        exact h2 _ (by omega) hk
    · rw [if_neg hc, hfin]
      refine ⟨[s.drop index], ?_, rfl⟩
      by_cases hl : count < limit
      · have : index = s.length := by omega
        refine .none fun k hk => ?_
        have := prefix_fits hk hw
        simp only [List.length_drop] at this
        omega
      · rw [show limit - count = 0 by omega]
        exact .enough

/-- Replacing by a plain pattern puts the replacement in place of the first occurrences, as many as are asked for. -/
theorem replace_ok {w s : List Nat} (hw : w ≠ []) (hs : s ≠ []) (r : List Nat) {limit : Nat} (h0 : 0 < limit) {fuel : Nat} (hf : s.length + 1 < fuel) :
    ∃ ps, Cut w limit s ps ∧ replace (plainFind w s) s r limit fuel = .ok (join r ps) := by
  have hw' : 0 < w.length := List.length_pos_iff.2 hw
  have hs' : 0 < s.length := List.length_pos_iff.2 hs
  unfold replace
  obtain ⟨fuel, rfl⟩ : ∃ f, fuel = f + 1 := ⟨fuel - 1, by omega⟩
  rw [replaceLoop, if_pos ⟨h0, hs'⟩]
  rcases plain_find (s := s) hw 0 with ⟨j, h1, h2, h3, h4⟩ | ⟨h1, h2⟩
  · rw [h1, ok_bind]
    have hfit := prefix_fits h3 hw
    have hp : (if 0 < j then subSequence s 0 j else .ok []) = .ok ((s.drop 0).take (j - 0)) := by
      by_cases hlt : 0 < j
      · rw [if_pos hlt, subSequence_ok h2 (by omega)]
      · rw [if_neg hlt, show j - 0 = 0 by omega, List.take_zero]
    simp only
    rw [hp, ok_bind]
    obtain ⟨ps, e1, e2⟩ := replaceLoop_ok (r := r) hw (limit := limit) fuel (j + w.length) (0 + 1) ((none : Option (List Nat)).getD [] ++ (s.drop 0).take (j - 0) ++ r)
      (by omega) (by omega) hfit
    refine ⟨(s.drop 0).take (j - 0) :: ps, ?_, ?_⟩
    · have := cut_step h2 h3 hw h4 e1
      rwa [show limit - (0 + 1) + 1 = limit by omega] at this
    · rw [e2, join_cons e1.ne_nil]
      simp
  · rw [h1, ok_bind]
    simp only
    rw [if_pos trivial]
    exact ⟨[s], .none fun k hk => h2 k (Nat.zero_le _) hk, rfl⟩

/-- `replaceAll` with a plain pattern, for a text that is not empty: every occurrence is replaced. -/
theorem replaceAll_ok_partial {w s : List Nat} (hw : w ≠ []) (hs : s ≠ []) (hl : s.length ≤ maxInt) (r : List Nat) {fuel : Nat} (hf : s.length + 1 < fuel) :
    ∃ ps, Cut w s.length s ps ∧ replaceAll (plainFind w s) s r fuel = .ok (join r ps) := by
  obtain ⟨ps, h1, h2⟩ := replace_ok hw hs r (limit := maxInt) (by decide) hf
  exact ⟨ps, cut_more hw h1 hl (Nat.le_refl _), h2⟩

/-- `replaceFirst` with a plain pattern, for a text that is not empty: the first occurrence is replaced. -/
theorem replaceFirst_ok_partial {w s : List Nat} (hw : w ≠ []) (hs : s ≠ []) (r : List Nat) {fuel : Nat} (hf : s.length + 1 < fuel) :
    ∃ ps, Cut w 1 s ps ∧ replaceFirst (plainFind w s) s r fuel = .ok (join r ps) :=
  replace_ok hw hs r (by decide) hf

/-- With an empty text, each pattern and each replacement, there is a null pointer exception. -/
theorem replace_empty_text (find : Nat → R (Option (Nat × Nat))) (r : List Nat) (limit fuel : Nat) :
    replace find [] r limit (fuel + 1) = .error .nullPointer := by
  unfold replace
  rw [replaceLoop, if_neg (by simp)]
  rfl

/-- If the pattern is found at the beginning as the empty text, `replace` finds it there again and again, until it has been counted to the limit. -/
theorem replace_same_place {find : Nat → R (Option (Nat × Nat))} {s r : List Nat} (hs : s ≠ []) (h : find 0 = .ok (some (0, 0))) {limit : Nat} :
    ∀ n count sb fuel, count + n = limit → replaceLoop find s r limit fuel 0 count (some sb) =
      if fuel ≤ n then .error .fuel else .ok (sb ++ (List.replicate n r).flatten ++ s)
  | 0, count, sb, 0, hc => rfl
  | n + 1, count, sb, 0, hc => by rw [replaceLoop, if_pos (by omega)]
  | 0, count, sb, fuel + 1, hc => by
    have hs' : 0 < s.length := List.length_pos_iff.2 hs
    rw [replaceLoop, if_neg (by omega), if_neg (by omega)]
    unfold replaceLoop.finish
    rw [if_pos hs']
    simp only
    rw [subSequence_rest (by omega), ok_bind]
    simp
  | n + 1, count, sb, fuel + 1, hc => by
    have hs' : 0 < s.length := List.length_pos_iff.2 hs
    rw [replaceLoop, if_pos ⟨by omega, hs'⟩, h, ok_bind]
    simp only
    rw [if_neg (by omega), ok_bind, Option.getD_some, List.append_nil, replace_same_place hs h n (count + 1) _ fuel (by omega)]
    by_cases hf : fuel ≤ n
    · rw [if_pos hf, if_pos (by omega)]
    · rw [if_neg hf, if_neg (by omega), List.replicate_succ, List.flatten_cons]
      simp only [List.append_assoc]

theorem replace_same_limit {find : Nat → R (Option (Nat × Nat))} {s : List Nat} (hs : s ≠ []) (h : find 0 = .ok (some (0, 0))) (r : List Nat) (n : Nat) :
    ∀ fuel, replace find s r (n + 1) fuel = if fuel ≤ n + 1 then .error .fuel else .ok ((List.replicate (n + 1) r).flatten ++ s)
  | 0 => by unfold replace; rw [replaceLoop, if_pos (Nat.zero_le _)]
  | fuel + 1 => by
    have hs' : 0 < s.length := List.length_pos_iff.2 hs
    unfold replace
    rw [replaceLoop, if_pos ⟨by omega, hs'⟩, h, ok_bind]
    simp only
    rw [if_neg (by omega), ok_bind, List.append_nil, Option.getD_none, List.nil_append, replace_same_place hs h n (0 + 1) r fuel (by omega)]
    by_cases hf : fuel ≤ n
    · rw [if_pos hf, if_pos (by omega)]
    · rw [if_neg hf, if_neg (by omega), List.replicate_succ, List.flatten_cons]

/-- So `replaceAll` takes 2147483647 rounds, and, if it has the memory, puts as many replacements in front of the text. -/
theorem replaceAll_empty_match_wrong {find : Nat → R (Option (Nat × Nat))} {s : List Nat} (hs : s ≠ []) (h : find 0 = .ok (some (0, 0))) (r : List Nat)
    (fuel : Nat) : replaceAll find s r fuel = if fuel ≤ maxInt then .error .fuel else .ok ((List.replicate maxInt r).flatten ++ s) := by
  have hm : maxInt = 2147483646 + 1 := rfl
  unfold replaceAll
  rw [hm]
  exact replace_same_limit hs h r 2147483646 fuel

/-- For example if the pattern is empty. -/
theorem plain_find_empty (s : List Nat) (start : Nat) : plainFind [] s start = .ok (some (start, start)) := rfl

/-- With an empty pattern, `find()` finds the same place for ever. -/
theorem plain_find_stuck (s : List Nat) (i : Nat) : plainFindNext [] s (i, i) = .ok (some (i, i)) := rfl

/-! ### Splitting by the empty pattern -/

theorem splitLoop_empty {s : List Nat} {limit : Nat} : ∀ fuel list index t, s.length - index < fuel → index ≤ s.length → list ≠ [] →
    list.length + (s.length - index) < limit →
    splitLoop [] s limit fuel list index t = .ok (list ++ (s.drop index).map (fun c => [c]), s.length, if index < s.length then 0 else t)
  | 0, _, _, _, h, _, _, _ => by omega
  | fuel + 1, list, index, t, h, hi, hne, hl => by
    rw [splitLoop]
    by_cases hc : index < s.length
    · rw [if_pos ⟨hc, by omega⟩, if_pos (by simp only [List.length_nil]), ok_bind]
      simp only
      rw [if_neg (by rw [List.length_eq_zero_iff]; exact hne), subSequence_ok (by omega) (by omega), ok_bind, List.drop_eq_getElem_cons hc,
        show index + 1 - index = 0 + 1 by omega, List.take_succ_cons, List.take_zero, if_neg (by simp), List.length_nil, Nat.add_zero,
        splitLoop_empty fuel _ (index + 1) 0 (by omega) (by omega) (by simp) (by simp; omega), if_pos hc, ite_self]
      simp only [List.append_assoc, List.singleton_append, List.map_cons]
    · rw [if_neg (by omega), if_neg hc, List.drop_of_length_le (by omega), show index = s.length by omega]
      simp

/-- The empty pattern splits a text into its characters, with an empty text before them (which is no longer so since Java 8). -/
theorem split_empty {s : List Nat} (hs : s ≠ []) (hl : s.length + 1 < maxInt) : split [] s 0 = .ok ([] :: s.map fun c => [c]) := by
  have hs' : 0 < s.length := List.length_pos_iff.2 hs
  unfold split
  have h1 : splitLoop [] s (if (0 : Int) ≤ 0 then maxInt else (0 : Int).toNat) (s.length + 2) [] 0 0 = .ok ([] :: s.map (fun c => [c]), s.length, 0) := by
    rw [if_pos (by omega), splitLoop, if_pos ⟨hs', by simp only [List.length_nil]; omega⟩, if_pos (by simp only [List.length_nil]), ok_bind]
    simp only
    rw [if_pos (by simp only [List.length_nil]), subSequence_ok (Nat.le_refl _) (by omega), ok_bind, if_neg (by simp), splitLoop_empty _ _ _ _ (by simp) (by simp) (by simp)
      (by simp; omega)]
    simp
  rw [h1, ok_bind]
  simp only
  rw [subSequence_rest (Nat.le_refl _), ok_bind, if_pos (⟨trivial, hs', trivial⟩ : True ∧ 0 < s.length ∧ True), if_neg (by simp)]
  congr 1
  rw [List.take_append_of_le_length (by simp), List.take_of_length_le (by simp)]

/-! ### Which patterns are plain -/

/-- `w` is there from `i` to `j`. -/
def At (s w : List Nat) (i j : Nat) : Prop := w <+: s.drop i ∧ j = i + w.length

theorem at_append {s a b : List Nat} {i j : Nat} : At s (a ++ b) i j ↔ ∃ k, At s a i k ∧ At s b k j := by
  constructor
  · rintro ⟨⟨t, ht⟩, h2⟩
    refine ⟨i + a.length, ⟨⟨b ++ t, by rw [← ht, List.append_assoc]⟩, rfl⟩, ⟨t, ?_⟩, by rw [h2, List.length_append]; omega⟩
    rw [← List.drop_drop, ← ht, List.append_assoc, List.drop_left]
  · rintro ⟨k, ⟨⟨t, ht⟩, rfl⟩, ⟨u, hu⟩, rfl⟩
    refine ⟨⟨u, ?_⟩, by rw [List.length_append]; omega⟩
    rw [← List.drop_drop, ← ht, List.drop_left] at hu
    rw [← ht, List.append_assoc, hu]

/-- Only characters. -/
def Plain (l : List Int) : Prop := ∀ x ∈ l, 0 ≤ x

theorem Plain.append {a b : List Int} (h : Plain (a ++ b)) : Plain a ∧ Plain b :=
  ⟨fun x hx => h x (List.mem_append_left _ hx), fun x hx => h x (List.mem_append_right _ hx)⟩

/-- What is shown of the code of an expression without instructions. -/
def Means (P : Nat → Nat → Prop) (s : List Nat) (l : List Int) : Prop :=
  (∀ x ∈ l, x ≤ 65535) ∧ ∀ i j, P i j ↔ At s (l.map Int.toNat) i j

theorem means_copies {P : Nat → Nat → Prop} {s : List Nat} {f : Nat → PikeVM.Tables → List Int × PikeVM.Tables}
    (hf : ∀ o t, Plain (f o t).1 → Means P s (f o t).1) : ∀ n o t, Plain (PikeVM.copies f n o t).1 →
    Means (PikeVM.Times P n) s (PikeVM.copies f n o t).1
  | 0, o, t, _ => by
    refine ⟨by simp [PikeVM.copies], fun i j => ?_⟩
    simp only [PikeVM.Times, PikeVM.copies, List.map_nil, At, List.nil_prefix, List.length_nil, true_and]
    omega
  | n + 1, o, t, h => by
    rw [PikeVM.copies] at h ⊢
    obtain ⟨h1, h2⟩ := Plain.append h
    obtain ⟨a1, a2⟩ := hf _ _ h1
    obtain ⟨b1, b2⟩ := means_copies hf n _ _ h2
    refine ⟨fun x hx => (List.mem_append.1 hx).elim (a1 x) (b1 x), fun i j => ?_⟩
    simp only [PikeVM.Times, List.map_append]
    rw [at_append]
    exact exists_congr fun k => and_congr (a2 i k) (b2 k j)

theorem times_snoc {P : Nat → Nat → Prop} : ∀ n i j, PikeVM.Times P (n + 1) i j ↔ ∃ k, PikeVM.Times P n i k ∧ P k j
  | 0, i, j => by
    simp only [PikeVM.Times]
    exact ⟨fun ⟨k, h, hk⟩ => ⟨i, rfl, hk ▸ h⟩, fun ⟨k, h, hk⟩ => ⟨j, h ▸ hk, rfl⟩⟩
  | n + 1, i, j => by
    rw [PikeVM.Times]
    constructor
    · rintro ⟨k, h1, h2⟩
      obtain ⟨l, h3, h4⟩ := (times_snoc n k j).1 h2
      exact ⟨l, ⟨k, h1, h3⟩, h4⟩
    · rintro ⟨l, ⟨k, h1, h3⟩, h4⟩
      exact ⟨k, h1, (times_snoc n k j).2 ⟨l, h3, h4⟩⟩

theorem means_write (S : PikeVM.Sem) (s : List Nat) : ∀ (e : PikeVM.Re) o t, e.ok → Plain (PikeVM.write e o t).1 →
    Means (fun i j => PikeVM.Lang S s e i j) s (PikeVM.write e o t).1
  | .nil, o, t, _, _ => by
    refine ⟨by simp [PikeVM.write], fun i j => ?_⟩
    simp only [PikeVM.Lang, PikeVM.write, List.map_nil, At, List.nil_prefix, List.length_nil, true_and, Nat.add_zero]
  | .chr c, o, t, h, _ => by
    refine ⟨?_, fun i j => ?_⟩
    · intro x hx
      simp only [PikeVM.write, List.mem_singleton] at hx
      simp only [PikeVM.Re.ok] at h
      omega
    · simp only [PikeVM.Lang, PikeVM.write, List.map_cons, List.map_nil, At, List.length_cons, List.length_nil, Int.toNat_natCast]
      refine and_congr ?_ (by omega)
      constructor
      · intro hg
        obtain ⟨hi, hc⟩ := List.getElem?_eq_some_iff.1 hg
        rw [List.drop_eq_getElem_cons hi, hc]
        exact ⟨_, rfl⟩
      · rintro ⟨u, hu⟩
        have := congrArg (fun l => l[0]?) hu
        simpa [List.getElem?_drop] using this.symm
  | .seq a b, o, t, h, hp => by
    rw [PikeVM.write] at hp ⊢
    obtain ⟨h1, h2⟩ := Plain.append hp
    obtain ⟨a1, a2⟩ := means_write S s a _ _ h.1 h1
    obtain ⟨b1, b2⟩ := means_write S s b _ _ h.2 h2
    refine ⟨fun x hx => (List.mem_append.1 hx).elim (a1 x) (b1 x), fun i j => ?_⟩
    simp only [PikeVM.Lang, List.map_append]
    rw [at_append]
    exact exists_congr fun k => and_congr (a2 i k) (b2 k j)
  | .rep e min max greedy, o, t, h, hp => by
    rw [PikeVM.write] at hp ⊢
    simp only at hp ⊢
    obtain ⟨h1, h2⟩ := Plain.append hp
    obtain ⟨a1, a2⟩ := means_copies (fun o t => means_write S s e o t h.1) _ _ _ h1
    cases max with
    | none =>
      exfalso
      simp only [PikeVM.repeatTail] at h2
      by_cases hm : 0 < min
      · rw [if_pos hm] at h2
        have := h2 (if greedy then PikeVM.SPLIT_JMP else PikeVM.SPLIT) (by simp)
        cases greedy <;> simp [PikeVM.SPLIT_JMP, PikeVM.SPLIT] at this
      · rw [if_neg hm] at h2
        have := h2 (if greedy then PikeVM.SPLIT else PikeVM.SPLIT_JMP) (by simp)
        cases greedy <;> simp [PikeVM.SPLIT_JMP, PikeVM.SPLIT] at this
    | some m =>
      obtain ⟨hm1, hm2⟩ := h.2 m rfl
      simp only [PikeVM.repeatTail] at h2 ⊢
      obtain ⟨h3, h4⟩ := Plain.append h2
      have hmm : m = min := by
        refine Classical.byContradiction fun hne => ?_
        obtain ⟨n, hn⟩ : ∃ n, m - min = n + 1 := ⟨m - min - 1, by omega⟩
        rw [hn, PikeVM.options] at h4
        have := h4 (if greedy then PikeVM.SPLIT else PikeVM.SPLIT_JMP) (by simp)
        cases greedy <;> simp [PikeVM.SPLIT_JMP, PikeVM.SPLIT] at this
      subst hmm
      rw [if_pos hm2] at h3 ⊢
      obtain ⟨b1, b2⟩ := means_write S s e _ _ h.1 h3
      simp only [Nat.sub_self, PikeVM.options, List.append_nil]
      refine ⟨fun x hx => (List.mem_append.1 hx).elim (a1 x) (b1 x), fun i j => ?_⟩
      simp only [PikeVM.Lang, List.map_append]
      rw [at_append]
      obtain ⟨m, rfl⟩ : ∃ n, m = n + 1 := ⟨m - 1, by omega⟩
      have : (∃ n, m + 1 ≤ n ∧ (∀ k, some (m + 1) = some k → n ≤ k) ∧ PikeVM.Times (fun i j => PikeVM.Lang S s e i j) n i j) ↔
          PikeVM.Times (fun i j => PikeVM.Lang S s e i j) (m + 1) i j := by
        constructor
        · rintro ⟨n, g1, g2, g3⟩
          have := g2 _ rfl
          rwa [show n = m + 1 by omega] at g3
        · intro g
          exact ⟨m + 1, Nat.le_refl _, fun k hk => by cases hk; exact Nat.le_refl _, g⟩
      rw [this, times_snoc]
      exact exists_congr fun k => and_congr (a2 i k) (b2 k j)
  | .alt a b, o, t, _, hp => by
    exfalso
    have := hp PikeVM.SPLIT (by simp [PikeVM.write])
    simp [PikeVM.SPLIT] at this
  | .cap e, o, t, _, hp => by
    exfalso
    have := hp PikeVM.SAVE_OFFSET (by simp [PikeVM.write])
    simp [PikeVM.SAVE_OFFSET] at this
  | .look n e, o, t, _, hp => by
    exfalso
    have := hp (if n then PikeVM.NEGATIVE_LOOKAHEAD else PikeVM.LOOKAHEAD) (by simp [PikeVM.write])
    cases n <;> simp [PikeVM.NEGATIVE_LOOKAHEAD, PikeVM.LOOKAHEAD] at this
  | .dot, o, t, _, hp => by
    exfalso
    have := hp PikeVM.DOT (by simp [PikeVM.write])
    simp [PikeVM.DOT] at this
  | .cls m, o, t, _, hp => by
    exfalso
    have := hp PikeVM.CHARACTER_CLASS (by simp [PikeVM.write])
    simp [PikeVM.CHARACTER_CLASS] at this
  | .boundary w, o, t, _, hp => by
    exfalso
    have := hp (if w then PikeVM.WORD_BOUNDARY else PikeVM.NON_WORD_BOUNDARY) (by simp [PikeVM.write])
    cases w <;> simp [PikeVM.WORD_BOUNDARY, PikeVM.NON_WORD_BOUNDARY] at this
  | .lineStart, o, t, _, hp => by
    exfalso
    have := hp PikeVM.LINE_START (by simp [PikeVM.write])
    simp [PikeVM.LINE_START] at this
  | .lineEnd, o, t, _, hp => by
    exfalso
    have := hp PikeVM.LINE_END (by simp [PikeVM.write])
    simp [PikeVM.LINE_END] at this

/-- A pattern taken for a plain text matches this text, and nothing else. -/
theorem plain_lang {e : PikeVM.Re} (hok : e.ok) {w : List Nat} (h : isPlainString (PikeVM.compile e) = some w) (S : PikeVM.Sem) (s : List Nat) (i j : Nat) :
    PikeVM.Lang S s e i j ↔ w <+: s.drop i ∧ j = i + w.length := by
  generalize hb : (PikeVM.write e 7 ⟨1, [], []⟩).1 = body
  have hprog : (PikeVM.compile e).program = [PikeVM.SPLIT_JMP, 5, PikeVM.DOTALL, PikeVM.SPLIT, 2, PikeVM.SAVE_OFFSET, 0] ++ body ++ [PikeVM.SAVE_OFFSET, 1] := by
    rw [← hb]
    simp [PikeVM.compile, PikeVM.write, PikeVM.VM.program]
  have hlen : (PikeVM.compile e).program.length = body.length + 9 := by
    rw [hprog]
    simp only [List.length_append, List.length_cons, List.length_nil]
    omega
  have hpre : (PikeVM.compile e).findPrefixLength = 5 := rfl
  have hstart : plainStart (PikeVM.compile e) = 7 := by
    unfold plainStart
    rw [hpre, hlen, if_pos]
    refine ⟨by omega, ?_, ?_⟩ <;> rw [hprog] <;> rfl
  have hend : plainEnd (PikeVM.compile e) = body.length + 7 := by
    unfold plainEnd
    rw [hstart, hlen, if_pos]
    · omega
    · refine ⟨by omega, ?_, ?_⟩
      · rw [hprog, List.getElem?_append_right (by simp)]
        simp only [List.length_append, List.length_cons, List.length_nil]
        rw [show body.length + 9 - 2 - (0 + 1 + 1 + 1 + 1 + 1 + 1 + 1 + body.length) = 0 by omega]
        rfl
      · rw [hprog, List.getElem?_append_right (by simp)]
        simp only [List.length_append, List.length_cons, List.length_nil]
        rw [show body.length + 9 - 1 - (0 + 1 + 1 + 1 + 1 + 1 + 1 + 1 + body.length) = 1 by omega]
        rfl
  unfold isPlainString at h
  rw [hstart, hend, hprog, List.append_assoc] at h
  simp only [Nat.add_sub_cancel] at h
  rw [show List.drop 7 ([PikeVM.SPLIT_JMP, 5, PikeVM.DOTALL, PikeVM.SPLIT, 2, PikeVM.SAVE_OFFSET, 0] ++ (body ++ [PikeVM.SAVE_OFFSET, 1])) =
    body ++ [PikeVM.SAVE_OFFSET, 1] from rfl, List.take_left] at h
  by_cases hn : (body.any fun x => decide (x < 0)) = true
  · rw [if_pos hn] at h; cases h
  · rw [if_neg hn] at h
    have hp : Plain (PikeVM.write e 7 ⟨1, [], []⟩).1 := by
      rw [hb]
      intro x hx
      refine Classical.byContradiction fun hlt => hn (List.any_eq_true.2 ⟨x, hx, by simp; omega⟩)
    obtain ⟨m1, m2⟩ := means_write S s e _ _ hok hp
    rw [hb] at m1 m2 hp
    have hw : w = body.map Int.toNat := by
      cases h
      refine List.map_congr_left fun x hx => ?_
      have h1 := m1 x hx
      have h2 := hp x hx
      rw [Int.emod_eq_of_lt h2 (by omega)]
    rw [hw]
    exact m2 i j

/-- So that `matches` answers the same for it as the machine. -/
theorem plain_matches {e : PikeVM.Re} (hok : e.ok) {w : List Nat} (h : isPlainString (PikeVM.compile e) = some w) (d : Nat) (hd : e.depth ≤ d) (s : List Nat) :
    (plainMatches w s = some (0, s.length) ∧ PikeVM.Lang PikeVM.java s e 0 s.length ∧
      ∃ o, PikeVM.isMatch (d + 1) (PikeVM.compile e) s = some (.done true (some o))) ∨
    (plainMatches w s = none ∧ ¬ PikeVM.Lang PikeVM.java s e 0 s.length ∧ PikeVM.isMatch (d + 1) (PikeVM.compile e) s = some (.done false none)) := by
  have hl := plain_lang hok h PikeVM.java s 0 s.length
  have hc := plain_lang hok h PikeVM.code s 0 s.length
  obtain ⟨h1, h2⟩ := PikeVM.matches_ok hok d hd s
  have hw : (w <+: s.drop 0 ∧ s.length = 0 + w.length) ↔ w = s := by
    rw [List.drop_zero]
    constructor
    · rintro ⟨hp, he⟩
      exact hp.eq_of_length (by omega)
    · rintro rfl
      exact ⟨List.prefix_refl _, by omega⟩
  rw [hw] at hl hc
  unfold plainMatches
  by_cases he : w = s
  · left
    rw [if_pos he]
    exact ⟨rfl, hl.2 he, h1 (hc.2 he)⟩
  · right
    rw [if_neg he]
    exact ⟨rfl, fun hx => he (hl.1 hx), h2 (fun hx => he (hc.1 hx))⟩

/-- And `find` gives the leftmost match. -/
theorem plain_find_lang {e : PikeVM.Re} (hok : e.ok) {w : List Nat} (h : isPlainString (PikeVM.compile e) = some w) (hw : w ≠ []) (s : List Nat) (start : Nat) :
    (∃ i j, plainFind w s start = .ok (some (i, j)) ∧ start ≤ i ∧ PikeVM.Lang PikeVM.java s e i j ∧
      ∀ i' j', start ≤ i' → PikeVM.Lang PikeVM.java s e i' j' → i ≤ i') ∨
    (plainFind w s start = .ok none ∧ ∀ i' j', start ≤ i' → ¬ PikeVM.Lang PikeVM.java s e i' j') := by
  have hl := plain_lang hok h PikeVM.java s
  rcases plain_find (s := s) hw start with ⟨i, h1, h2, h3, h4⟩ | ⟨h1, h2⟩
  · left
    refine ⟨i, i + w.length, h1, h2, (hl _ _).2 ⟨h3, rfl⟩, fun i' j' hi' hL => ?_⟩
    refine Classical.byContradiction fun hlt => h4 i' hi' (by omega) ((hl _ _).1 hL).1
  · right
    exact ⟨h1, fun i' j' hi' hL => h2 i' hi' ((hl _ _).1 hL).1⟩

/-! ### Splitting by other patterns -/

/-- The matches are found one after the other, beginning behind `last`. -/
inductive Found (find : Nat → R (Option (Nat × Nat))) : Option (Nat × Nat) → List (Nat × Nat) → Option (Nat × Nat) → Prop
  | nil {last : Option (Nat × Nat)} : Found find last [] last
  | cons {last last' : Option (Nat × Nat)} {m : Nat × Nat} {ms : List (Nat × Nat)} : findNext find last = .ok (some m) → Found find (some m) ms last' →
      Found find last (m :: ms) last'

/-- The pieces between the matches, from `offset` on. -/
def pieces (s : List Nat) : Nat → List (Nat × Nat) → List (List Nat)
  | offset, [] => [s.drop offset]
  | offset, (a, b) :: ms => (s.drop offset).take (a - offset) :: pieces s b ms

/-- Where the last match ends. -/
def lastEnd : Nat → List (Nat × Nat) → Nat
  | offset, [] => offset
  | _, (_, b) :: ms => lastEnd b ms

/-- The matches are inside the text, and in order. -/
def Ordered (s : List Nat) : Nat → List (Nat × Nat) → Prop
  | offset, [] => offset ≤ s.length
  | offset, (a, b) :: ms => offset ≤ a ∧ a ≤ b ∧ b ≤ s.length ∧ Ordered s b ms

theorem pieces_ne_nil (s : List Nat) (offset : Nat) (ms : List (Nat × Nat)) : pieces s offset ms ≠ [] := by
  cases ms <;> simp [pieces]

theorem pieces_length (s : List Nat) : ∀ ms offset, (pieces s offset ms).length = ms.length + 1
  | [], _ => rfl
  | (_, _) :: ms, _ => by rw [pieces, List.length_cons, pieces_length s ms, List.length_cons]

theorem pieces_last (s : List Nat) : ∀ ms offset, pieces s offset ms = (pieces s offset ms).dropLast ++ [s.drop (lastEnd offset ms)]
  | [], _ => rfl
  | (a, b) :: ms, _ => by
    have hl := pieces_last s ms b
    rw [pieces, lastEnd, List.dropLast_cons_of_ne_nil (pieces_ne_nil _ _ _), List.cons_append, ← hl]

theorem ordered_last {s : List Nat} : ∀ ms offset, Ordered s offset ms → lastEnd offset ms ≤ s.length
  | [], _, h => h
  | (_, _) :: ms, _, h => ordered_last ms _ h.2.2.2

theorem regexSplitLoop_ok {find : Nat → R (Option (Nat × Nat))} {s : List Nat} {limit : Nat} {ms : List (Nat × Nat)} {last last' : Option (Nat × Nat)}
    (h : Found find last ms last') : ∀ fuel result offset, ms.length < fuel → Ordered s offset ms → result.length + ms.length ≤ limit →
    (result.length + ms.length = limit ∨ findNext find last' = .ok none) →
    regexSplitLoop find s limit fuel last result offset = .ok (result ++ (pieces s offset ms).dropLast, lastEnd offset ms) := by
  induction h with
  | nil =>
    intro fuel result offset hf ho hl hend
    obtain ⟨fuel, rfl⟩ : ∃ f, fuel = f + 1 := ⟨fuel - 1, by simp only [List.length_nil] at hf; omega⟩
    rw [regexSplitLoop]
    simp only [List.length_nil, Nat.add_zero] at hl hend
    by_cases hc : limit ≤ result.length
    · rw [if_pos hc]
      simp [pieces, lastEnd]
    · rw [if_neg hc]
      rcases hend with he | he
      · omega
      · rw [he, ok_bind]
        simp [pieces, lastEnd]
  | @cons last last' m ms h1 h2 ih =>
    obtain ⟨a, b⟩ := m
    intro fuel result offset hf ho hl hend
    simp only [List.length_cons] at hf hl hend
    obtain ⟨fuel, rfl⟩ : ∃ f, fuel = f + 1 := ⟨fuel - 1, by omega⟩
    obtain ⟨o1, o2, o3, o4⟩ := ho
    rw [regexSplitLoop, if_neg (by omega), h1, ok_bind]
    simp only
    rw [subSequence_ok o1 (by omega), ok_bind, ih fuel _ b (by omega) o4 (by simp; omega) (by simp only [List.length_append, List.length_cons, List.length_nil]; exact hend.imp_left (by omega)),
      pieces, List.dropLast_cons_of_ne_nil (pieces_ne_nil _ _ _), lastEnd]
    simp

/-- `split` with another pattern gives the pieces between the matches, provided that there are fewer matches than the limit allows and that the last
piece is not empty, or that there are no matches. -/
theorem regexSplit_ok_partial {find : Nat → R (Option (Nat × Nat))} {s : List Nat} {ms : List (Nat × Nat)} {last : Option (Nat × Nat)}
    (h : Found find none ms last) (hend : findNext find last = .ok none) (ho : Ordered s 0 ms) {limit : Int}
    (hl : ms.length < if limit ≤ 0 then maxInt else limit.toNat) (hlast : lastEnd 0 ms < s.length ∨ ms = []) {fuel : Nat} (hf : ms.length < fuel) :
    regexSplit find s limit fuel = .ok (pieces s 0 ms) := by
  unfold regexSplit
  rw [regexSplitLoop_ok h fuel [] 0 hf ho (by rw [List.length_nil, Nat.zero_add]; exact Nat.le_of_lt hl) (.inr hend), ok_bind]
  simp only
  have hle := ordered_last ms 0 ho
  rw [if_pos, subSequence_rest hle, ok_bind, List.nil_append, ← pieces_last]
  rcases hlast with hlt | rfl
  · exact .inr hlt
  · exact .inl rfl

/-- If more matches are there than the limit allows, there is one piece more than the limit. -/
theorem regexSplit_limit_wrong {find : Nat → R (Option (Nat × Nat))} {s : List Nat} {ms : List (Nat × Nat)} {last : Option (Nat × Nat)}
    (h : Found find none ms last) (ho : Ordered s 0 ms) {limit : Int} (h0 : 0 < limit) (hl : (ms.length : Int) = limit) (hlast : lastEnd 0 ms < s.length)
    {fuel : Nat} (hf : ms.length < fuel) : ∃ ps, regexSplit find s limit fuel = .ok ps ∧ (ps.length : Int) = limit + 1 := by
  refine ⟨pieces s 0 ms, ?_, by rw [pieces_length]; omega⟩
  unfold regexSplit
  rw [if_neg (by omega), regexSplitLoop_ok h fuel [] 0 hf ho (by simp; omega) (.inl (by simp; omega)), ok_bind]
  simp only
  rw [if_pos (.inr hlast), subSequence_rest (by omega), ok_bind, List.nil_append, ← pieces_last]

/-! ### Cases -/

/-- `,,` in `a,,b,,,c,,` is cut three times: `a`, `b`, `,c` and an empty piece. -/
example : Cut [44, 44] 10 [97, 44, 44, 98, 44, 44, 44, 99, 44, 44] [[97], [98], [44, 99], []] := by
  refine .cut (a := [97]) (rest := [98, 44, 44, 44, 99, 44, 44]) (by decide) ?_
  refine .cut (a := [98]) (rest := [44, 99, 44, 44]) (by decide) ?_
  refine .cut (a := [44, 99]) (rest := []) (by decide) (.none fun k => ?_)
  rw [List.drop_nil]
  decide

/-- All pieces; without the empty one at the end; two only. -/
example : split [44, 44] [97, 44, 44, 98, 44, 44, 44, 99, 44, 44] (-1) = .ok [[97], [98], [44, 99], []] ∧
    split [44, 44] [97, 44, 44, 98, 44, 44, 44, 99, 44, 44] 0 = .ok [[97], [98], [44, 99]] ∧
    split [44, 44] [97, 44, 44, 98, 44, 44, 44, 99, 44, 44] 2 = .ok [[97], [98, 44, 44, 44, 99, 44, 44]] := by decide +kernel

/-- No pieces are left of a text of separators only, and one of the empty text. -/
example : split [44] [44, 44] 0 = .ok [] ∧ split [44] [] 0 = .ok [[]] := by decide +kernel

/-- `,,` replaced by `-`. -/
example : replaceAll (plainFind [44, 44] [97, 44, 44, 98, 44, 44, 44, 99]) [97, 44, 44, 98, 44, 44, 44, 99] [45] 20 = .ok [97, 45, 98, 45, 44, 99] ∧
    replaceFirst (plainFind [44, 44] [97, 44, 44, 98, 44, 44, 44, 99]) [97, 44, 44, 98, 44, 44, 44, 99] [45] 20 = .ok [97, 45, 98, 44, 44, 44, 99] := by
  decide +kernel

/-- `"".replaceAll("a", "b")` should be the empty text. -/
example : Cut [97] 0 [] [[]] ∧ join [98] [[]] = [] ∧ replaceAll (plainFind [97] []) [] [98] 5 = .error .nullPointer := ⟨.enough, rfl, rfl⟩

/-- `ab{2}c` is plain, and so is the empty pattern; `ab?` is not. -/
example : isPlainString (PikeVM.compile (.seq (.chr 97) (.seq (.rep (.chr 98) 2 (some 2) true) (.chr 99)))) = some [97, 98, 98, 99] ∧
    isPlainString (PikeVM.compile .nil) = some [] ∧
    isPlainString (PikeVM.compile (.seq (.chr 97) (.rep (.chr 98) 0 (some 1) true))) = none := by decide +kernel

example : (PikeVM.Re.seq (.chr 97) (.seq (.rep (.chr 98) 2 (some 2) true) (.chr 99))).ok := by
  simp [PikeVM.Re.ok]

/-- `[0-9]` -/
def digit : PikeVM.VM := PikeVM.compile (.cls fun c => decide (48 ≤ c) && decide (c ≤ 57))

/-- `a1b2c` is split by it at the digits. -/
example : regexSplit (regexFind 1 digit [97, 49, 98, 50, 99]) [97, 49, 98, 50, 99] 0 9 = .ok [[97], [98], [99]] := by decide +kernel

example : Found (regexFind 1 digit [97, 49, 98, 50, 99]) none [(1, 2), (3, 4)] (some (3, 4)) ∧
    findNext (regexFind 1 digit [97, 49, 98, 50, 99]) (some (3, 4)) = .ok none ∧ Ordered [97, 49, 98, 50, 99] 0 [(1, 2), (3, 4)] ∧
    lastEnd 0 [(1, 2), (3, 4)] < 5 :=
  ⟨.cons (by decide +kernel) (.cons (by decide +kernel) .nil), by decide +kernel, by simp [Ordered], by decide⟩

/-- With the limit 2, there are three pieces instead of `a` and `b2c`. -/
theorem regexSplit_limit_case : regexSplit (regexFind 1 digit [97, 49, 98, 50, 99]) [97, 49, 98, 50, 99] 2 9 = .ok [[97], [98], [99]] := by decide +kernel

/-- Only one empty piece at the end is left out: `a11` gives `a` and an empty text instead of `a`, and `1` an empty text instead of nothing. -/
theorem regexSplit_trailing_wrong : regexSplit (regexFind 1 digit [97, 49, 49]) [97, 49, 49] 0 9 = .ok [[97], []] ∧
    regexSplit (regexFind 1 digit [49]) [49] 0 9 = .ok [[]] ∧ strip (pieces [97, 49, 49] 0 [(1, 2), (2, 3)]) = [[97]] ∧ strip (pieces [49] 0 [(0, 1)]) = [] := by
  decide +kernel

/-- And it is left out as well if the limit is negative: `a1` gives `a` instead of `a` and an empty text. -/
theorem regexSplit_negative_wrong : regexSplit (regexFind 1 digit [97, 49]) [97, 49] (-1) 9 = .ok [[97]] ∧ pieces [97, 49] 0 [(1, 2)] = [[97], []] := by
  decide +kernel

/-- `"b".split("x*")` fails with an exception. -/
theorem regexSplit_empty_match_fails :
    regexSplit (regexFind 1 (PikeVM.compile (.rep (.chr 120) 0 none true)) [98]) [98] 0 9 = .error .indexOutOfBounds := by decide +kernel

/-- `"b".replaceAll("x*", …)` finds the empty text at the beginning, so that `replaceAll_empty_match_wrong` applies. -/
example : regexFind 1 (PikeVM.compile (.rep (.chr 120) 0 none true)) [98] 0 = .ok (some (0, 0)) := by decide +kernel

end Avian.PlainPattern
