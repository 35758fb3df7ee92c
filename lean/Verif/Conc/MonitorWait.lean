import Verif.Conc.MonitorQueue

/-! The wait list of object monitors: the pointers represent a list. -/

namespace Avian.Monitor

/-- the wait list of the monitor represents the list `w` -/
structure WRep (s : Shared) (w : List Tid) : Prop where
  head : s.waitHead = w.head?
  tail : s.waitTail = w.getLast?
  next : ∀ i a, w[i]? = some a → s.waitNext a = w[i + 1]?
  off : ∀ a, a ∉ w → s.waitNext a = none
  flag : ∀ a, s.flag a = true ↔ a ∈ w
  nodup : w.Nodup

theorem appendWait_rep {s t w} (h : WRep s w) (ht : t ∉ w) :
    ∃ s', appendWait s t = some s' ∧ WRep s' (w ++ [t]) ∧ s'.waits = s.waits ++ [t] ∧
      s'.lock = s.lock ∧ s'.asleep = s.asleep := by
  have hf : s.flag t = false := by
    cases hc : s.flag t with
    | false => rfl
    | true => exact absurd ((h.flag t).1 hc) ht
  have hn := h.off t ht
  have hnd : (w ++ [t]).Nodup := by
    rw [List.nodup_append]
    exact ⟨h.nodup, by simp, by intro a ha b hb; simp at hb; subst hb; rintro rfl; exact ht ha⟩
  have hflag : ∀ a, set s.flag t true a = true ↔ a ∈ w ++ [t] := by
    intro a
    by_cases hat : a = t
    · subst hat; simp [set_self]
    · rw [set_ne _ _ _ _ hat, h.flag]; simp [hat]
  simp only [appendWait, hf, hn]
  cases hw : s.waitTail with
  | none =>
    have hwn : w = [] := by
      have := h.tail; rw [hw] at this
      exact List.getLast?_eq_none_iff.1 this.symm
    subst hwn
    refine ⟨_, rfl, ⟨rfl, rfl, ?_, ?_, hflag, hnd⟩, rfl, rfl, rfl⟩
    · intro i a ha
      show s.waitNext a = _
      rw [h.off a (by simp)]
      symm; apply List.getElem?_eq_none
      have := lt_of_getElem? ha; simp at this ⊢
    · intro a _; exact h.off a (by simp)
  | some l =>
    have hl : w.getLast? = some l := by rw [← h.tail]; exact hw
    have hne : w ≠ [] := by rintro rfl; simp at hl
    have hlast : w[w.length - 1]? = some l := by rw [← List.getLast?_eq_getElem?]; exact hl
    refine ⟨_, rfl, ⟨?_, by simp, ?_, ?_, hflag, hnd⟩, rfl, rfl, rfl⟩
    · show s.waitHead = _
      rw [h.head]; cases w <;> simp_all
    · intro i a ha
      show set s.waitNext l (some t) a = _
      rcases Nat.lt_or_ge i w.length with hi | hi
      · have ha' : w[i]? = some a := by rw [← ha]; exact (List.getElem?_append_left hi).symm
        by_cases hal : a = l
        · subst hal
          have := nodup_idx h.nodup ha' hlast
          rw [set_self]
          have : i + 1 = w.length := by omega
          rw [this]; simp
        · rw [set_ne _ _ _ _ hal, h.next i a ha']
          have : i + 1 < w.length := by
            rcases Nat.lt_or_ge (i + 1) w.length with h' | h'
            · exact h'
            · have : i = w.length - 1 := by omega
              subst this; rw [hlast] at ha'; exact absurd (Option.some.inj ha').symm hal
          rw [List.getElem?_append_left this]
      · have : i = w.length := by have := lt_of_getElem? ha; simp at this; omega
        subst this
        have hat : a = t := by simpa using ha.symm
        subst hat
        have : a ≠ l := by rintro rfl; exact ht (List.mem_of_getElem? hlast)
        rw [set_ne _ _ _ _ this, hn]
        symm; apply List.getElem?_eq_none; simp
    · intro a ha
      simp at ha
      show set s.waitNext l (some t) a = none
      have : a ≠ l := by rintro rfl; exact ha.1 (List.mem_of_getElem? hlast)
      rw [set_ne _ _ _ _ this]; exact h.off a ha.1

theorem pollWait_nil {s} (h : WRep s []) : pollWait s = (none, s) := by
  have := h.head
  simp only [pollWait, this]
  rfl

theorem pollWait_cons {s u w} (h : WRep s (u :: w)) :
    (pollWait s).1 = some u ∧ WRep (pollWait s).2 w ∧ (pollWait s).2.waits = s.waits.tail ∧
      (pollWait s).2.lock = s.lock ∧ (pollWait s).2.asleep = s.asleep := by
  have hh : s.waitHead = some u := h.head
  have hnd := List.nodup_cons.1 h.nodup
  have hnu : s.waitNext u = w.head? := by
    rw [h.next 0 u rfl]; cases w <;> rfl
  have hnext : ∀ i a, w[i]? = some a → set s.waitNext u none a = w[i + 1]? := by
    intro i a ha
    have : a ≠ u := by rintro rfl; exact hnd.1 (List.mem_of_getElem? ha)
    rw [set_ne _ _ _ _ this]
    exact h.next (i + 1) a ha
  have hoff : ∀ a, a ∉ w → set s.waitNext u none a = none := by
    intro a ha
    by_cases hau : a = u
    · subst hau; exact set_self _ _ _
    · rw [set_ne _ _ _ _ hau]; exact h.off a (by simp [hau, ha])
  have hflag : ∀ a, set s.flag u false a = true ↔ a ∈ w := by
    intro a
    by_cases hau : a = u
    · subst hau; simp [set_self, hnd.1]
    · rw [set_ne _ _ _ _ hau, h.flag]; simp [hau]
  have ht := h.tail
  by_cases hl : s.waitTail = some u
  · have hw : w = [] := by
      cases w with
      | nil => rfl
      | cons b w =>
        rw [ht] at hl
        have h1 : (b :: w).getLast? = some u := by simpa using hl
        exact absurd (List.mem_of_getLast? h1) hnd.1
    subst hw
    have e : pollWait s = (some u, { s with waitHead := s.waitNext u, flag := set s.flag u false, waitNext := set s.waitNext u none, waitTail := none, waits := s.waits.tail }) := by
      simp [pollWait, hh, hl]
    rw [e]
    exact ⟨rfl, ⟨hnu, rfl, hnext, hoff, hflag, hnd.2⟩, rfl, rfl, rfl⟩
  · have e : pollWait s = (some u, { s with waitHead := s.waitNext u, flag := set s.flag u false, waitNext := set s.waitNext u none, waits := s.waits.tail }) := by
      simp [pollWait, hh, hl]
    rw [e]
    refine ⟨rfl, ⟨hnu, ?_, hnext, hoff, hflag, hnd.2⟩, rfl, rfl, rfl⟩
    show s.waitTail = _
    rw [ht] at hl ⊢
    cases w with
    | nil => simp at hl
    | cons b w => simp

/-- the walk finds a listed thread, with its predecessor -/
theorem findWait_mem {next : Tid → Option Tid} {t : Tid} (w1 w2 : List Tid) (prev : Option Tid) (fuel : Nat)
    (hf : (w1 ++ t :: w2).length < fuel)
    (hn : ∀ i a, (w1 ++ t :: w2)[i]? = some a → next a = (w1 ++ t :: w2)[i + 1]?) (ht : t ∉ w1) :
    findWait next t fuel prev (w1 ++ t :: w2).head? = some (if w1 = [] then prev else w1.getLast?) := by
  induction w1 generalizing prev fuel with
  | nil =>
    cases fuel with
    | zero => simp at hf
    | succ f => simp [findWait]
  | cons c w1 ih =>
    cases fuel with
    | zero => simp at hf
    | succ f =>
      have hc : t ≠ c := by rintro rfl; simp at ht
      have h0 : next c = (w1 ++ t :: w2).head? := by
        rw [hn 0 c rfl]; simp [List.head?_eq_getElem?]
      simp only [List.cons_append, List.head?_cons, findWait, if_neg hc, h0]
      rw [ih (some c) f (by simp at hf ⊢; omega) (fun i a ha => hn (i + 1) a ha) (by simp at ht; exact ht.2)]
      cases w1 with
      | nil => simp
      | cons b w1 => simp [List.getLast?_cons]

theorem findWait_not_mem {next : Tid → Option Tid} {t : Tid} (w : List Tid) (prev : Option Tid) (fuel : Nat)
    (hn : ∀ i a, w[i]? = some a → next a = w[i + 1]?) (ht : t ∉ w) :
    findWait next t fuel prev w.head? = none := by
  induction w generalizing prev fuel with
  | nil => cases fuel <;> rfl
  | cons c w ih =>
    cases fuel with
    | zero => rfl
    | succ f =>
      have hc : t ≠ c := by rintro rfl; simp at ht
      have h0 : next c = w.head? := by rw [hn 0 c rfl]; simp [List.head?_eq_getElem?]
      simp only [List.head?_cons, findWait, if_neg hc, h0]
      exact ih (some c) f (fun i a ha => hn (i + 1) a ha) (by simp at ht; exact ht.2)

theorem removeWait_rep {s t w fuel} (h : WRep s w) (ht : t ∈ w) (hf : w.length < fuel) :
    ∃ s', removeWait fuel s t = some s' ∧ WRep s' (w.erase t) ∧ s'.waits = s.waits.erase t ∧
      s'.lock = s.lock ∧ s'.asleep = s.asleep := by
  obtain ⟨w1, w2, rfl, hw1⟩ := List.eq_append_cons_of_mem ht
  have her : (w1 ++ t :: w2).erase t = w1 ++ w2 := by
    rw [List.erase_append_right _ hw1]; simp
  rw [her]
  have hnd := h.nodup
  rw [List.nodup_append, List.nodup_cons] at hnd
  obtain ⟨nd1, ⟨tw2, nd2⟩, dis⟩ := hnd
  have hfind := findWait_mem w1 w2 none fuel hf h.next hw1
  rw [← h.head] at hfind
  have hnt : s.waitNext t = w2.head? := by
    have := h.next w1.length t (by simp)
    rw [this, List.head?_eq_getElem?, List.getElem?_append_right (by omega)]
    have : w1.length + 1 - w1.length = 1 := by omega
    rw [this]; rfl
  have hflag : ∀ a, set s.flag t false a = true ↔ a ∈ w1 ++ w2 := by
    intro a
    by_cases hat : a = t
    · subst hat; simp [set_self, hw1, tw2]
    · rw [set_ne _ _ _ _ hat, h.flag]; simp [hat]
  have hndr : (w1 ++ w2).Nodup := by
    rw [List.nodup_append]; exact ⟨nd1, nd2, fun a ha b hb => dis a ha b (by simp [hb])⟩
  have hoff0 : ∀ a, a ∉ w1 ++ w2 → a ≠ t → s.waitNext a = none := by
    intro a ha hat; apply h.off; simp at ha ⊢; exact ⟨ha.1, hat, ha.2⟩
  have htail := h.tail
  -- the tail of the list
  have htl : (s.waitTail = some t ↔ w2 = []) := by
    rw [htail]
    cases w2 with
    | nil => simp
    | cons b w2 =>
      simp only [reduceCtorEq, iff_false]
      intro hl
      have h1 : (b :: w2).getLast? = some t := by simpa using hl
      exact tw2 (List.mem_of_getLast? h1)
  cases w1 with
  | nil =>
    have hhd : s.waitHead = some t := h.head
    simp only [if_true] at hfind
    rw [hhd] at hfind
    have hnext : ∀ i a, w2[i]? = some a → set s.waitNext t none a = w2[i + 1]? := by
      intro i a ha
      have : a ≠ t := by rintro rfl; exact tw2 (List.mem_of_getElem? ha)
      rw [set_ne _ _ _ _ this]; exact h.next (i + 1) a ha
    have hoff : ∀ a, a ∉ w2 → set s.waitNext t none a = none := by
      intro a ha
      by_cases hat : a = t
      · subst hat; exact set_self _ _ _
      · rw [set_ne _ _ _ _ hat]; exact hoff0 a (by simpa using ha) hat
    by_cases h2 : w2 = []
    · have e : removeWait fuel s t = some { s with waitHead := s.waitNext t, waitTail := none, waitNext := set s.waitNext t none, flag := set s.flag t false, waits := s.waits.erase t } := by
        simp [removeWait, hfind, hhd, htl.2 h2]
      rw [e]
      refine ⟨_, rfl, ⟨hnt, ?_, hnext, hoff, hflag, hndr⟩, rfl, rfl, rfl⟩
      subst h2; rfl
    · have e : removeWait fuel s t = some { s with waitHead := s.waitNext t, waitNext := set s.waitNext t none, flag := set s.flag t false, waits := s.waits.erase t } := by
        have : ¬ s.waitTail = some t := fun h' => h2 (htl.1 h')
        simp [removeWait, hfind, hhd, this]
      rw [e]
      refine ⟨_, rfl, ⟨hnt, ?_, hnext, hoff, hflag, hndr⟩, rfl, rfl, rfl⟩
      show s.waitTail = _
      rw [htail]
      cases w2 with
      | nil => exact absurd rfl h2
      | cons b w2 => simp
  | cons c w1 =>
    obtain ⟨p, hp⟩ : ∃ p, (c :: w1).getLast? = some p := by
      cases hl : (c :: w1).getLast? with
      | none => simp at hl
      | some p => exact ⟨p, rfl⟩
    have hpm : p ∈ c :: w1 := List.mem_of_getLast? hp
    have hpt : p ≠ t := by rintro rfl; exact hw1 hpm
    have hhd : ¬ s.waitHead = some t := by
      rw [h.head]; simp; rintro rfl; simp at hw1
    have hhd' : s.waitHead = some c := h.head
    simp only [reduceCtorEq, if_false, hp] at hfind
    have hpi : (c :: w1)[w1.length]? = some p := by
      rw [← hp, List.getLast?_eq_getElem?]; simp
    have hpw2 : p ∉ w2 := fun hm => dis p hpm p (by simp [hm]) rfl
    have hnext : ∀ i a, (c :: w1 ++ w2)[i]? = some a →
        set (set s.waitNext p (s.waitNext t)) t none a = (c :: w1 ++ w2)[i + 1]? := by
      intro i a ha
      have ham : a ∈ c :: w1 ++ w2 := List.mem_of_getElem? ha
      have hat : a ≠ t := by
        rintro rfl
        rcases List.mem_append.1 ham with h' | h'
        · exact hw1 h'
        · exact tw2 h'
      rw [set_ne _ _ _ _ hat]
      rcases Nat.lt_or_ge i (w1.length + 1) with hi | hi
      · have ha1 : (c :: w1)[i]? = some a := by
          rw [← ha]; exact (List.getElem?_append_left (by simpa using hi)).symm
        by_cases hap : a = p
        · subst hap
          have : i = w1.length := nodup_idx nd1 ha1 hpi
          subst this
          rw [set_self, hnt, List.head?_eq_getElem?, List.getElem?_append_right (by simp)]
          simp
        · rw [set_ne _ _ _ _ hap]
          have hi' : i < w1.length := by
            rcases Nat.lt_or_ge i w1.length with h' | h'
            · exact h'
            · have : i = w1.length := by omega
              subst this; rw [hpi] at ha1; exact absurd (Option.some.inj ha1).symm hap
          rw [h.next i a (get_append _ ha1)]
          rw [List.getElem?_append_left (by simp; omega), List.getElem?_append_left (by simp; omega)]
      · have ha2 : w2[i - (w1.length + 1)]? = some a := by
          rw [← ha, List.getElem?_append_right (by simpa using hi)]; simp
        have hap : a ≠ p := by rintro rfl; exact hpw2 (List.mem_of_getElem? ha2)
        rw [set_ne _ _ _ _ hap]
        have := h.next (i + 1) a (by
          rw [List.getElem?_append_right (by simp; omega)]
          simp only [List.length_cons]
          have : i + 1 - (w1.length + 1) = i - (w1.length + 1) + 1 := by omega
          rw [this, List.getElem?_cons_succ]; exact ha2)
        rw [this, List.getElem?_append_right (by simp; omega), List.getElem?_append_right (by simp; omega)]
        simp only [List.length_cons]
        have e1 : i + 1 + 1 - (w1.length + 1) = (i + 1 - (w1.length + 1)) + 1 := by omega
        rw [e1, List.getElem?_cons_succ]
    have hoff : ∀ a, a ∉ c :: w1 ++ w2 → set (set s.waitNext p (s.waitNext t)) t none a = none := by
      intro a ha
      by_cases hat : a = t
      · subst hat; exact set_self _ _ _
      · have hap : a ≠ p := by rintro rfl; exact ha (List.mem_append.2 (.inl hpm))
        rw [set_ne _ _ _ _ hat, set_ne _ _ _ _ hap]; exact hoff0 a ha hat
    by_cases h2 : w2 = []
    · have e : removeWait fuel s t = some { s with waitNext := set (set s.waitNext p (s.waitNext t)) t none, waitTail := some p, flag := set s.flag t false, waits := s.waits.erase t } := by
        simp [removeWait, hfind, hhd, htl.2 h2]
      rw [e]
      refine ⟨_, rfl, ⟨hhd', ?_, hnext, hoff, hflag, hndr⟩, rfl, rfl, rfl⟩
      subst h2; simpa using hp.symm
    · have e : removeWait fuel s t = some { s with waitNext := set (set s.waitNext p (s.waitNext t)) t none, flag := set s.flag t false, waits := s.waits.erase t } := by
        have : ¬ s.waitTail = some t := fun h' => h2 (htl.1 h')
        simp [removeWait, hfind, hhd, this]
      rw [e]
      refine ⟨_, rfl, ⟨hhd', ?_, hnext, hoff, hflag, hndr⟩, rfl, rfl, rfl⟩
      show s.waitTail = _
      rw [htail]
      cases w2 with
      | nil => exact absurd rfl h2
      | cons b w2 => simp [List.getLast?_append, List.getLast?_cons]

end Avian.Monitor
