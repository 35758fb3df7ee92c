import Verif.Conc.SysMonitorOwn

/-!
The list of waiting threads of the platform monitor: what `append`, `remove` and the assertions do.
-/

namespace Avian.SysMonitor

/-- following `next` from `p` lists exactly `l` -/
def Chain (next : Nat → Nat) : Nat → List Nat → Prop
  | p, [] => p = 0
  | p, a :: l => p = a ∧ a ≠ 0 ∧ Chain next (next a) l

def lastOf : List Nat → Nat
  | [] => 0
  | [a] => a
  | _ :: b :: l => lastOf (b :: l)

/-- the fields of the monitor represent the queue `l` -/
def Full (s : Shared) (l : List Nat) : Prop := Chain s.next s.first l ∧ s.last = lastOf l

theorem Chain.congr {n n' : Nat → Nat} {p l} (h : Chain n p l) (he : ∀ x, x ∈ l → n' x = n x) : Chain n' p l := by
  induction l generalizing p with
  | nil => exact h
  | cons a l ih =>
    refine ⟨h.1, h.2.1, ?_⟩
    rw [he a (by simp)]
    exact ih h.2.2 (fun x hx => he x (by simp [hx]))

theorem Chain.ne_zero {n : Nat → Nat} {p l} (h : Chain n p l) : ∀ x ∈ l, x ≠ 0 := by
  induction l generalizing p with
  | nil => simp
  | cons a l ih =>
    intro x hx
    rcases List.mem_cons.1 hx with e | hx
    · subst e; exact h.2.1
    · exact ih h.2.2 x hx

theorem Chain.head {n : Nat → Nat} {p l} (h : Chain n p l) : p = 0 ∧ l = [] ∨ p ∈ l := by
  cases l with
  | nil => exact Or.inl ⟨h, rfl⟩
  | cons a l => right; rw [h.1]; simp

theorem lastOf_mem {l : List Nat} (h : l ≠ []) : lastOf l ∈ l := by
  fun_induction lastOf l with
  | case1 => exact absurd rfl h
  | case2 => simp
  | case3 a b l ih => exact List.mem_cons_of_mem _ (ih (by simp))

theorem lastOf_snoc (l : List Nat) (t) : lastOf (l ++ [t]) = t := by
  fun_induction lastOf l with
  | case1 => rfl
  | case2 => rfl
  | case3 a b l ih => simpa [lastOf] using ih

theorem lastOf_append (l : List Nat) (t r) : lastOf (l ++ t :: r) = lastOf (t :: r) := by
  fun_induction lastOf l with
  | case1 => rfl
  | case2 => rfl
  | case3 a b l ih => simpa [lastOf] using ih

theorem absent_eq {n : Nat → Nat} {t fuel p l} (h : Chain n p l) (hf : l.length ≤ fuel) :
    absent n t fuel p = decide (t ∉ l) := by
  induction l generalizing p fuel with
  | nil => cases h; cases fuel <;> simp [absent]
  | cons a l ih =>
    obtain ⟨rfl, h0, hc⟩ := h
    cases fuel with
    | zero => simp at hf
    | succ fuel =>
      cases p with
      | zero => exact absurd rfl h0
      | succ p =>
        simp only [absent]
        by_cases ht : t = p + 1
        · simp [ht]
        · rw [if_neg ht, ih hc (by simpa using hf)]
          simp [ht]

theorem Chain.snoc {n : Nat → Nat} {p l t} (h : Chain n p l) (hl : l ≠ []) (hn : l.Nodup) (ht : t ∉ l) (h0 : t ≠ 0)
    (hz : n t = 0) : Chain (upd n (lastOf l) t) p (l ++ [t]) := by
  induction l generalizing p with
  | nil => exact absurd rfl hl
  | cons a l ih =>
    cases l with
    | nil =>
      obtain ⟨rfl, ha, hc⟩ := h
      refine ⟨rfl, ha, ?_⟩
      simp only [lastOf, List.nil_append, upd_same]
      refine ⟨rfl, h0, ?_⟩
      rw [upd_ne (fun e => ht (by simp [e]))]
      exact hz
    | cons b l =>
      obtain ⟨rfl, ha, hc⟩ := h
      rw [List.nodup_cons] at hn
      refine ⟨rfl, ha, ?_⟩
      have : lastOf (b :: l) ≠ p := fun e => hn.1 (e ▸ lastOf_mem (by simp))
      simp only [lastOf]
      rw [upd_ne (fun e => this e.symm)]
      exact ih hc (by simp) hn.2 (fun hm => ht (by simp [hm]))

theorem append_full {s : Shared} {l t} (h : Full s l) (hn : l.Nodup) (ht : t ∉ l) (h0 : t ≠ 0) (hz : s.next t = 0)
    (hf : l.length ≤ s.log.length) : ∃ s', append s t = some s' ∧ Full s' (l ++ [t]) ∧
      ∀ x, x ∉ l → s'.next x = s.next x := by
  unfold append
  rw [absent_eq h.1 (by omega)]
  simp only [ht, not_false_eq_true, decide_true, if_true]
  by_cases hl : l = []
  · subst hl
    have h2 : s.last = 0 := h.2
    have h1 : s.first = 0 := h.1
    refine ⟨{ s with first := t, last := t }, by simp [h2], ⟨⟨rfl, h0, hz⟩, rfl⟩, fun _ _ => rfl⟩
  · have hm := lastOf_mem hl
    have hne : s.last ≠ 0 := by rw [h.2]; exact h.1.ne_zero _ hm
    have htl : t ≠ s.last := fun e => ht (by rw [e, h.2]; exact hm)
    refine ⟨{ s with next := upd s.next s.last t, last := t }, by simp [hne, htl], ⟨?_, ?_⟩, ?_⟩
    · have := h.1.snoc hl hn ht h0 hz
      rw [← h.2] at this
      exact this
    · exact (lastOf_snoc l t).symm
    · intro x hx
      exact upd_ne (fun e => hx (by rw [e, h.2]; exact hm))

theorem Chain.relink {n : Nat → Nat} {p pre t rest} (hp : pre ≠ []) (h : Chain n p (pre ++ t :: rest))
    (hn : (pre ++ t :: rest).Nodup) : Chain (upd (upd n (lastOf pre) (n t)) t 0) p (pre ++ rest) := by
  induction pre generalizing p with
  | nil => exact absurd rfl hp
  | cons a pre ih =>
    obtain ⟨rfl, ha, hc⟩ := h
    rw [List.cons_append, List.nodup_cons] at hn
    have hpt : p ≠ t := fun e => hn.1 (by simp [e])
    refine ⟨rfl, ha, ?_⟩
    cases pre with
    | nil =>
      obtain ⟨h1, h2, h3⟩ := hc
      rw [upd_ne hpt]
      simp only [lastOf, upd_same]
      have hn2 := hn.2
      simp only [List.nil_append, List.nodup_cons] at hn2
      refine h3.congr (fun x hx => ?_)
      rw [upd_ne (fun (e : x = t) => hn2.1 (e ▸ hx)), upd_ne (fun (e : x = p) => hn.1 (by rw [← e]; simp [hx]))]
    | cons b pre =>
      have : lastOf (b :: pre) ≠ p := fun e => hn.1 (by rw [← e]; exact List.mem_append_left _ (lastOf_mem (by simp)))
      rw [upd_ne hpt]
      simp only [lastOf]
      rw [upd_ne (fun e => this e.symm)]
      exact ih (by simp) hc hn.2

theorem chain_tail {n : Nat → Nat} {p pre t rest} (h : Chain n p (pre ++ t :: rest)) : Chain n (n t) rest := by
  induction pre generalizing p with
  | nil => exact h.2.2
  | cons a pre ih => exact ih h.2.2

theorem removeLoop_full {s : Shared} {t fuel previous current pre suf} (h : Full s (pre ++ suf)) (hn : (pre ++ suf).Nodup)
    (hp : previous = lastOf pre) (hc : Chain s.next current suf) (ht : t ∉ pre) (hf : suf.length ≤ fuel) :
    ∃ s', removeLoop t fuel s previous current = some s' ∧ Full s' (pre ++ suf.erase t) ∧
      ∀ x, x ∉ pre ++ suf → s'.next x = s.next x := by
  induction suf generalizing fuel previous current pre with
  | nil =>
    cases hc
    refine ⟨s, ?_, h, fun _ _ => rfl⟩
    cases fuel <;> rfl
  | cons a suf ih =>
    obtain ⟨rfl, h0, hc⟩ := hc
    cases fuel with
    | zero => simp at hf
    | succ fuel =>
      cases current with
      | zero => exact absurd rfl h0
      | succ c =>
        simp only [removeLoop]
        by_cases htc : t = c + 1
        · subst htc
          have hsuf : (c + 1) ∉ suf := by
            have := (List.nodup_append.1 hn).2.1
            exact (List.nodup_cons.1 this).1
          rw [if_pos rfl, List.erase_cons_head]
          have hlast : c + 1 = s.last ↔ suf = [] := by
            rw [h.2, lastOf_append]
            cases suf with
            | nil => simp [lastOf]
            | cons b suf =>
              simp only [reduceCtorEq, iff_false]
              intro e
              exact hsuf (by rw [e]; exact lastOf_mem (by simp))
          have hlast2 : s.last = lastOf suf ∨ suf = [] := by
            cases suf with
            | nil => exact Or.inr rfl
            | cons b suf => left; rw [h.2, lastOf_append]; rfl
          by_cases hpre : pre = []
          · subst hpre
            have hfi : s.first = c + 1 := h.1.1
            simp only [hfi, if_true, Option.map_some]
            refine ⟨_, rfl, ⟨?_, ?_⟩, ?_⟩
            · have : Chain (upd s.next (c + 1) 0) (s.next (c + 1)) suf :=
                hc.congr (fun x hx => upd_ne (fun e => hsuf (e ▸ hx)))
              split <;> exact this
            · split
              · rename_i hl
                have := hlast.1 hl
                subst this; subst hp; rfl
              · rename_i hl
                have : ¬ suf = [] := fun e => hl (hlast.2 e)
                exact hlast2.resolve_right this
            · intro x hx
              have : upd s.next (c + 1) 0 x = s.next x := upd_ne (fun e => hx (by simp [e]))
              split <;> exact this
          · have hfi : c + 1 ≠ s.first := by
              cases pre with
              | nil => exact absurd rfl hpre
              | cons b pre =>
                have := h.1.1
                rw [this]
                exact fun e => ht (by simp [e])
            have hq : previous ∈ pre := by rw [hp]; exact lastOf_mem hpre
            have hqn : previous ≠ s.next (c + 1) := by
              intro e
              rcases hc.head with ⟨h1, h2⟩ | h1
              · exact h.1.ne_zero previous (List.mem_append_left _ hq) (e.trans h1)
              · have := (List.nodup_append.1 hn).2.2 previous hq (s.next (c + 1)) (List.mem_cons_of_mem _ h1)
                exact this e
            rw [if_neg hfi, if_neg hqn]
            simp only [Option.map_some]
            refine ⟨_, rfl, ⟨?_, ?_⟩, ?_⟩
            · have := h.1.relink hpre hn
              rw [← hp] at this
              split <;> exact this
            · split
              · rename_i hl
                have := hlast.1 hl
                subst this; rw [List.append_nil]; exact hp
              · rename_i hl
                have hs : ¬ suf = [] := fun e => hl (hlast.2 e)
                cases suf with
                | nil => exact absurd rfl hs
                | cons b suf => rw [lastOf_append]; exact hlast2.resolve_right hs
            · intro x hx
              have : upd (upd s.next previous (s.next (c + 1))) (c + 1) 0 x = s.next x := by
                rw [upd_ne (fun e => hx (by simp [e])), upd_ne (fun e => hx (by simp [e, hq]))]
              split <;> exact this
        · rw [if_neg htc]
          have he : pre ++ (c + 1) :: suf = (pre ++ [c + 1]) ++ suf := by simp
          have hm : ¬ (c + 1 == t) = true := by simpa using fun e => htc e.symm
          obtain ⟨s', h1, h2, h3⟩ := ih (fuel := fuel) (previous := c + 1) (pre := pre ++ [c + 1]) (he ▸ h) (he ▸ hn)
            (lastOf_snoc _ _).symm hc (by simp [ht, htc]) (by simpa using hf)
          refine ⟨s', h1, ?_, fun x hx => h3 x (by rwa [← he])⟩
          rw [List.erase_cons_tail hm]
          simpa using h2

theorem remove_full {s : Shared} {t l} (h : Full s l) (hn : l.Nodup) (hf : l.length ≤ s.log.length) :
    ∃ s', remove s t = some s' ∧ Full s' (l.erase t) ∧ ∀ x, x ∉ l → s'.next x = s.next x := by
  obtain ⟨s', h1, h2, h3⟩ := removeLoop_full (s := s) (t := t) (fuel := s.log.length + 1) (previous := 0)
    (current := s.first) (pre := []) (suf := l) h hn rfl h.1 (by simp) (by omega)
  refine ⟨s', ?_, h2, h3⟩
  simp only [remove, h1, Option.bind_some]
  have h2' : Full s' (l.erase t) := h2
  have hlen : (l.erase t).length ≤ l.length := (List.erase_sublist).length_le
  rw [absent_eq h2'.1 (by omega)]
  have : t ∉ l.erase t := fun hm => (List.Nodup.mem_erase_iff hn).1 hm |>.1 rfl
  simp [this]

end Avian.SysMonitor
