import Verif.Lib.LinkedHashMap
import Verif.Lib.Outcome

/-
C67: hash maps that keep the order of insertion.
-/
namespace Avian.LinkedHashMap

variable {K V : Type}

/-! ### The list of nodes -/

/-- The nodes `l`, in this order, are linked both ways. -/
structure Links (m : Map K V) (l : List Node) : Prop where
  first : m.first = l.head?
  last : m.last = l.getLast?
  links : ∀ a c b, l = a ++ c :: b → m.next c = b.head? ∧ m.previous c = a.getLast?

theorem set_same {A : Type} (f : Node → A) (c : Node) (a : A) : set f c a c = a := by simp [set]

theorem set_other {A : Type} (f : Node → A) {c d : Node} (a : A) (h : d ≠ c) : set f c a d = f d := by
  simp [set, h]

variable [DecidableEq K]

theorem link_ok {m : Map K V} {l : List Node} (h : Links m l) (hb : ∀ c ∈ l, c < m.fresh) (k : K) :
    ∃ m', link m k = .ok m' ∧ Links m' (l ++ [m.fresh]) ∧ m'.base = m.base ∧ m'.size = m.size ∧
      m'.lookup = m.lookup ∧ m'.key = set m.key m.fresh k ∧ m'.fresh = m.fresh + 1 := by
  have hne : ∀ c ∈ l, c ≠ m.fresh := fun c hc => Nat.ne_of_lt (hb c hc)
  unfold link
  simp only
  rcases List.eq_nil_or_concat l with rfl | ⟨l', x, rfl⟩
  · have hf := h.first
    simp only [List.head?_nil] at hf
    rw [hf]
    refine ⟨_, rfl, ⟨rfl, rfl, ?_⟩, rfl, rfl, rfl, rfl, rfl⟩
    intro a c b e
    simp only [List.nil_append] at e
    cases a with
    | nil =>
      simp only [List.nil_append, List.cons.injEq] at e
      obtain ⟨rfl, rfl⟩ := e
      exact ⟨by simp [set], by simp [set]⟩
    | cons y a => simp at e
  · rw [List.concat_eq_append] at h hb hne ⊢
    have hf := h.first
    have hl := h.last
    simp only [List.getLast?_append, List.getLast?_singleton, Option.some_or] at hl
    obtain ⟨y, hy⟩ : ∃ y, (l' ++ [x]).head? = some y := by cases l' <;> simp
    rw [hf, hy, hl]
    refine ⟨_, rfl, ⟨?_, ?_, ?_⟩, rfl, rfl, rfl, rfl, rfl⟩
    · simp only [hf, hy]
      cases l' <;> simp_all
    · simp
    · intro a c b e
      have hxf : x ≠ m.fresh := hne x (by simp)
      simp only [Nat.add_sub_cancel]
      rcases List.eq_nil_or_concat b with rfl | ⟨b', z, rfl⟩
      · have e' := List.append_inj' e (by simp)
        obtain ⟨rfl, e2⟩ := e'
        simp only [List.cons.injEq, and_true] at e2
        subst e2
        refine ⟨?_, ?_⟩
        · rw [set_other _ _ (Ne.symm hxf), set_same]; rfl
        · rw [set_same]; simp
      · rw [List.concat_eq_append] at e ⊢
        have e0 : l' ++ [x] ++ [m.fresh] = (a ++ c :: b') ++ [z] := by simpa using e
        have e' := List.append_inj' e0 (by simp)
        obtain ⟨e1, e2⟩ := e'
        simp only [List.cons.injEq, and_true] at e2
        subst e2
        have hc : c ≠ m.fresh := hne c (by rw [e1]; simp)
        obtain ⟨g1, g2⟩ := h.links a c b' e1
        refine ⟨?_, ?_⟩
        · rcases List.eq_nil_or_concat b' with rfl | ⟨b'', w, rfl⟩
          · have e3 := List.append_inj' e1 (by simp)
            obtain ⟨_, e4⟩ := e3
            simp only [List.cons.injEq, and_true] at e4
            subst e4
            rw [set_same]; rfl
          · by_cases hcx : c = x
            · -- then `x` has a successor in the old list, which it has not
              subst hcx
              have := (h.links l' c [] rfl).1
              rw [g1] at this
              cases b'' <;> simp at this
            · rw [set_other _ _ hcx, set_other _ _ hc, g1]
              cases b'' <;> simp
        · rw [set_other _ _ hc, set_other _ _ hc, g2]

theorem unlink_ok {m : Map K V} {a b : List Node} {n : Node} (h : Links m (a ++ n :: b))
    (hn : (a ++ n :: b).Nodup) :
    Links (unlink m n) (a ++ b) := by
  obtain ⟨hnx, hpv⟩ := h.links a n b rfl
  rw [List.nodup_append] at hn
  obtain ⟨hna, hnb, hdis⟩ := hn
  rw [List.nodup_cons] at hnb
  -- the fields afterwards
  have hnext : ∀ c, c ≠ n → (unlink m n).next c = if a.getLast? = some c then b.head? else m.next c := by
    intro c hc
    unfold unlink
    rw [hpv]
    cases hg : a.getLast? with
    | none =>
      simp only
      rw [hnx]
      cases hb : b.head? <;> simp
    | some p =>
      have hpn : n ≠ p := fun e => hdis p (List.mem_of_getLast? hg) n (by simp) e.symm
      simp only
      rw [set_other _ _ hpn, hnx]
      cases hb : b.head? with
      | none =>
        simp only [Option.some.injEq]
        by_cases e : c = p
        · subst e; simp [set]
        · rw [set_other _ _ e, if_neg (fun e' => e e'.symm)]
      | some x =>
        simp only [Option.some.injEq]
        by_cases e : c = p
        · subst e; simp [set]
        · rw [set_other _ _ e, if_neg (fun e' => e e'.symm)]
  have hprev : ∀ c, c ≠ n → (unlink m n).previous c = if b.head? = some c then a.getLast? else m.previous c := by
    intro c hc
    unfold unlink
    rw [hpv]
    cases hg : a.getLast? with
    | none =>
      simp only
      rw [hnx]
      cases hb : b.head? with
      | none => simp
      | some x =>
        simp only [Option.some.injEq]
        by_cases e : c = x
        · subst e; simp [set, hpv, hg]
        · rw [set_other _ _ e, if_neg (fun e' => e e'.symm)]
    | some p =>
      have hpn : n ≠ p := fun e => hdis p (List.mem_of_getLast? hg) n (by simp) e.symm
      simp only
      rw [set_other _ _ hpn, hnx]
      cases hb : b.head? with
      | none => simp
      | some x =>
        simp only [Option.some.injEq]
        by_cases e : c = x
        · subst e; simp [set, hpv, hg]
        · rw [set_other _ _ e, if_neg (fun e' => e e'.symm)]
  have hfirst : (unlink m n).first = if a = [] then b.head? else m.first := by
    unfold unlink
    rw [hpv]
    rcases List.eq_nil_or_concat a with rfl | ⟨a', p, rfl⟩
    · simp only [List.getLast?_nil, if_true]
      rw [hnx]
      cases hb : b.head? <;> simp
    · simp only [List.concat_eq_append, List.getLast?_append, List.getLast?_singleton, Option.some_or]
      have hpn : n ≠ p := fun e => hdis p (by simp) n (by simp) e.symm
      rw [set_other _ _ hpn, hnx]
      cases hb : b.head? <;> simp
  have hlast : (unlink m n).last = if b = [] then a.getLast? else m.last := by
    unfold unlink
    rw [hpv]
    have hbh : ∀ (o : Option Node), o = b.head? → (o = none ↔ b = []) := by
      intro o e; subst e; cases b <;> simp
    cases hg : a.getLast? with
    | none =>
      simp only
      rw [hnx]
      cases hb : b with
      | nil => simp [hpv, hg]
      | cons x b' => simp
    | some p =>
      have hpn : n ≠ p := fun e => hdis p (List.mem_of_getLast? hg) n (by simp) e.symm
      simp only
      rw [set_other _ _ hpn, hnx]
      cases hb : b with
      | nil => simp [hpv, hg]
      | cons x b' => simp
  refine ⟨?_, ?_, ?_⟩
  · rw [hfirst]
    cases a with
    | nil => simp
    | cons x a => simp [h.first]
  · rw [hlast]
    rcases List.eq_nil_or_concat b with rfl | ⟨b', p, rfl⟩
    · simp
    · simp only [List.concat_eq_append, List.append_eq_nil_iff, List.cons_ne_nil, and_false, if_false]
      rw [h.last]
      simp [List.getLast?_append, List.getLast?_cons]
  · intro p c q e
    rcases List.append_eq_append_iff.1 e with ⟨r, e1, e2⟩ | ⟨r, e1, e2⟩
    · -- `c` is in `b`
      have hcb : c ∈ b := by rw [e2]; simp
      have hcn : c ≠ n := fun e' => hnb.1 (e' ▸ hcb)
      have hca : a.getLast? ≠ some c := fun e' => hdis c (List.mem_of_getLast? e') c (by simp [hcb]) rfl
      subst e1
      subst e2
      obtain ⟨g1, g2⟩ := h.links (a ++ n :: r) c q (by simp)
      refine ⟨?_, ?_⟩
      · rw [hnext c hcn, if_neg hca, g1]
      · rw [hprev c hcn]
        cases r with
        | nil => simp
        | cons x r =>
          have hx : (x :: r ++ c :: q).head? ≠ some c := by
            intro e'
            simp only [List.cons_append, List.head?_cons, Option.some.injEq] at e'
            subst e'
            have := hnb.2
            simp at this
          rw [if_neg hx, g2]
          simp [List.getLast?_append, List.getLast?_cons]
    · -- `c` is in `a`, or the first of `b`
      cases r with
      | nil =>
        simp only [List.append_nil] at e1
        simp only [List.nil_append] at e2
        subst e1
        have hcb : c ∈ b := by rw [← e2]; simp
        have hcn : c ≠ n := fun e' => hnb.1 (e' ▸ hcb)
        have hca : a.getLast? ≠ some c := fun e' => hdis c (List.mem_of_getLast? e') c (by simp [hcb]) rfl
        subst e2
        obtain ⟨g1, g2⟩ := h.links (a ++ [n]) c q (by simp)
        refine ⟨?_, ?_⟩
        · rw [hnext c hcn, if_neg hca, g1]
        · rw [hprev c hcn]; simp
      | cons y r =>
        simp only [List.cons_append, List.cons.injEq] at e2
        obtain ⟨rfl, rfl⟩ := e2
        subst e1
        have hcn : c ≠ n := fun e' => hdis c (by simp) n (by simp) e'
        have hbc : b.head? ≠ some c := fun e' => hdis c (by simp) c (by simp [List.mem_of_head? e']) rfl
        obtain ⟨g1, g2⟩ := h.links p c (r ++ n :: b) (by simp)
        refine ⟨?_, ?_⟩
        · rw [hnext c hcn]
          rcases List.eq_nil_or_concat r with rfl | ⟨r', z, rfl⟩
          · simp
          · have hz : (p ++ c :: (r' ++ [z])).getLast? ≠ some c := by
              intro e'
              simp only [List.getLast?_append, List.getLast?_cons, List.getLast?_singleton, Option.some_or,
                Option.getD_some, Option.some.injEq] at e'
              subst e'
              rw [List.nodup_append] at hna
              have := (List.nodup_cons.1 hna.2.1).1
              simp at this
            rw [List.concat_eq_append, if_neg hz, g1]
            cases r' <;> simp
        · rw [hprev c hcn, if_neg hbc, g2]

/-! ### The invariant -/

/-- `l` are the nodes of the entries in the map, in the order of insertion. -/
structure Good (m : Map K V) (l : List Node) : Prop where
  links : Links m l
  nodup : l.Nodup
  below : ∀ c ∈ l, c < m.fresh
  keys : ∀ c ∈ l, ∀ d ∈ l, m.key c = m.key d → c = d
  base : ∀ k, m.base k ≠ none ↔ ∃ c ∈ l, m.key c = k
  lookup : ∀ c ∈ l, m.lookup (m.key c) = some c
  size : m.size = l.length

/-- The entries of the map, in order. -/
def entriesOf (m : Map K V) (l : List Node) : List (K × Option V) :=
  l.map fun c => (m.key c, (m.base (m.key c)).bind id)

/-! ### The specification -/

inductive Op (K V : Type) where
  | put (k : K) (v : Option V)
  | get (k : K)
  | containsKey (k : K)
  | remove (k : K)
  | size
  | clear
  /-- an iteration over all entries that removes those for which `del` holds -/
  | sweep (del : K → Option V → Bool)

inductive Res (K V : Type) where
  | val (v : Option V)
  | bool (b : Bool)
  | int (i : Int)
  | unit
  | entries (es : List (K × Option V))
  deriving DecidableEq

/-- The value of a key in a list of entries. -/
def valueIn (es : List (K × Option V)) (k : K) : Option (Option V) :=
  (es.find? fun e => e.1 = k).map Prod.snd

/-- What the operations do to the list of entries, the oldest first. -/
def spec (es : List (K × Option V)) : Op K V → Res K V × List (K × Option V)
  | .put k v => (.val ((valueIn es k).bind id),
      if (valueIn es k).isSome then es.map fun e => if e.1 = k then (k, v) else e else es ++ [(k, v)])
  | .get k => (.val ((valueIn es k).bind id), es)
  | .containsKey k => (.bool (valueIn es k).isSome, es)
  | .remove k => (.val ((valueIn es k).bind id), es.filter fun e => e.1 ≠ k)
  | .size => (.int es.length, es)
  | .clear => (.unit, [])
  | .sweep del => (.entries es, es.filter fun e => !del e.1 e.2)

/-- What the code does.  There are `m.fresh` nodes, so an iteration that makes more steps never ends. -/
def exec (m : Map K V) : Op K V → Except Exn (Res K V × Map K V)
  | .put k v => (put m k v).bind fun r => .ok (.val r.1, r.2)
  | .get k => .ok (.val ((m.base k).bind id), m)
  | .containsKey k => .ok (.bool (m.base k).isSome, m)
  | .remove k => .ok (.val (remove m k).1, (remove m k).2)
  | .size => .ok (.int m.size, m)
  | .clear => .ok (.unit, clear m)
  | .sweep del => (sweep del m.fresh m m.first).bind fun r => .ok (.entries r.1, r.2)

theorem value_in {m : Map K V} {l : List Node} (h : Good m l) (k : K) :
    valueIn (entriesOf m l) k = m.base k := by
  unfold valueIn entriesOf
  rw [List.find?_map]
  cases hf : l.find? ((fun e : K × Option V => decide (e.1 = k)) ∘ fun c => (m.key c, (m.base (m.key c)).bind id)) with
  | none =>
    rw [List.find?_eq_none] at hf
    simp only [Option.map_none]
    cases hb : m.base k with
    | none => rfl
    | some v =>
      obtain ⟨c, hc, e⟩ := (h.base k).1 (by simp [hb])
      have := hf c hc
      simp [e] at this
  | some c =>
    have h1 := List.mem_of_find?_eq_some hf
    have h2 := List.find?_some hf
    simp at h2
    subst h2
    have := (h.base (m.key c)).2 ⟨c, h1, rfl⟩
    cases hb : m.base (m.key c) with
    | none => exact absurd hb this
    | some v => simp [hb]

theorem good_empty (d : K) : Good (empty d : Map K V) [] :=
  ⟨⟨rfl, rfl, by simp⟩, by simp, by simp, by simp, by simp [empty], by simp, rfl⟩

theorem store_same {A : Type} (f : K → A) (k : K) (a : A) : store f k a k = a := by simp [store]

theorem store_other {A : Type} (f : K → A) {k x : K} (a : A) (h : x ≠ k) : store f k a x = f x := by
  simp [store, h]

theorem links_congr {m m' : Map K V} {l : List Node} (h : Links m l) (h1 : m'.first = m.first)
    (h2 : m'.last = m.last) (h3 : m'.next = m.next) (h4 : m'.previous = m.previous) : Links m' l :=
  ⟨by rw [h1]; exact h.first, by rw [h2]; exact h.last, by rw [h3, h4]; exact h.links⟩

theorem put_ok {m : Map K V} {l : List Node} (h : Good m l) (k : K) (v : Option V) :
    ∃ m' l', put m k v = .ok ((m.base k).bind id, m') ∧ Good m' l' ∧
      entriesOf m' l' = (spec (entriesOf m l) (.put k v)).2 ∧
      (∀ x, m.lookup x = none → x ≠ k → m'.lookup x = none) := by
  unfold put
  simp only [spec, value_in h]
  cases hb : m.base k with
  | none =>
    rw [if_pos rfl]
    obtain ⟨m1, e1, e2, f1, f2, f3, f4, f5⟩ := link_ok h.links h.below k
    rw [e1]
    have hne : ∀ c ∈ l, c ≠ m.fresh := fun c hc => Nat.ne_of_lt (h.below c hc)
    have hkey : ∀ c ∈ l, m1.key c = m.key c := fun c hc => by rw [f4]; exact set_other _ _ (hne c hc)
    have hkf : m1.key m.fresh = k := by rw [f4]; exact set_same _ _ _
    have hnk : ∀ c ∈ l, m.key c ≠ k := fun c hc e => (h.base k).2 ⟨c, hc, e⟩ hb
    refine ⟨_, l ++ [m.fresh], rfl, ⟨links_congr e2 rfl rfl rfl rfl, ?_, ?_, ?_, ?_, ?_, ?_⟩, ?_, ?_⟩
    · rw [List.nodup_append]
      exact ⟨h.nodup, by simp, fun a ha b hb' e => by simp at hb'; exact hne a ha (e.trans hb')⟩
    · intro c hc
      simp only [basePut, f5]
      rcases List.mem_append.1 hc with hc | hc
      · exact Nat.lt_succ_of_lt (h.below c hc)
      · simp at hc; subst hc; exact Nat.lt_succ_self _
    · intro c hc d hd e
      simp only [basePut] at e
      rcases List.mem_append.1 hc with hc | hc <;> rcases List.mem_append.1 hd with hd | hd
      · rw [hkey c hc, hkey d hd] at e; exact h.keys c hc d hd e
      · simp at hd; subst hd
        rw [hkey c hc, hkf] at e; exact absurd e (hnk c hc)
      · simp at hc; subst hc
        rw [hkey d hd, hkf] at e; exact absurd e.symm (hnk d hd)
      · simp at hc hd; rw [hc, hd]
    · intro x
      simp only [basePut, f1]
      by_cases hx : x = k
      · subst hx
        rw [store_same]
        exact ⟨fun _ => ⟨m.fresh, by simp, hkf⟩, fun _ => by simp⟩
      · rw [store_other _ _ hx, h.base x]
        constructor
        · rintro ⟨c, hc, e⟩
          exact ⟨c, by simp [hc], by rw [hkey c hc]; exact e⟩
        · rintro ⟨c, hc, e⟩
          rcases List.mem_append.1 hc with hc | hc
          · exact ⟨c, hc, by rw [← hkey c hc]; exact e⟩
          · simp at hc; subst hc
            exact absurd (e.symm.trans hkf) hx
    · intro c hc
      simp only [basePut, f3]
      rcases List.mem_append.1 hc with hc | hc
      · rw [hkey c hc, store_other _ _ (hnk c hc)]; exact h.lookup c hc
      · simp at hc; subst hc
        rw [hkf, store_same]
    · simp only [basePut, f1, f2, hb, if_true, List.length_append, List.length_cons, List.length_nil]
      rw [h.size]; simp
    · simp only [Option.isSome_none, Bool.false_eq_true, if_false, entriesOf, List.map_append, List.map_cons,
        List.map_nil, basePut, hkf, store_same, f1]
      congr 1
      apply List.map_congr_left
      intro c hc
      rw [hkey c hc, store_other _ _ (hnk c hc)]
    · intro x hx hxk
      simp only [basePut, f3]
      rw [store_other _ _ hxk]; exact hx
  | some w =>
    rw [if_neg (by simp)]
    refine ⟨_, l, rfl, ⟨links_congr h.links rfl rfl rfl rfl, h.nodup, h.below, h.keys, ?_, h.lookup, ?_⟩, ?_, ?_⟩
    · intro x
      simp only [basePut]
      by_cases hx : x = k
      · subst hx
        rw [store_same, ← h.base x, hb]; simp
      · rw [store_other _ _ hx]; exact h.base x
    · simp only [basePut, hb]; exact h.size
    · simp only [Option.isSome_some, if_true, entriesOf, basePut, List.map_map]
      apply List.map_congr_left
      intro c hc
      simp only [Function.comp]
      by_cases e : m.key c = k
      · rw [if_pos e, e, store_same]; rfl
      · rw [if_neg e, store_other _ _ e]
    · intro x hx _; exact hx

/-- The removal of a key that is in the map. -/
theorem remove_present {m : Map K V} {a b : List Node} {n : Node} (h : Good m (a ++ n :: b)) :
    Good (remove m (m.key n)).2 (a ++ b) ∧
    entriesOf (remove m (m.key n)).2 (a ++ b) = (entriesOf m (a ++ n :: b)).filter (fun e => e.1 ≠ m.key n) ∧
    (remove m (m.key n)).1 = (m.base (m.key n)).bind id ∧
    (remove m (m.key n)).2.key = m.key ∧
    (∀ x, x ≠ m.key n → (remove m (m.key n)).2.base x = m.base x) ∧
    (remove m (m.key n)).2.lookup = m.lookup := by
  have hf : (unlink m n).key = m.key ∧ (unlink m n).lookup = m.lookup ∧ (unlink m n).fresh = m.fresh := by
    unfold unlink
    cases m.previous n <;> simp only <;> split <;> simp
  have hlk := h.lookup n (by simp)
  have hnb : m.base (m.key n) ≠ none := (h.base _).2 ⟨n, by simp, rfl⟩
  have hne : ∀ c ∈ a ++ b, c ≠ n := by
    have hn := h.nodup
    rw [List.nodup_append] at hn
    rintro c hc rfl
    rcases List.mem_append.1 hc with hc | hc
    · exact hn.2.2 c hc c (by simp) rfl
    · exact (List.nodup_cons.1 hn.2.1).1 hc
  have hsub : ∀ c, c ∈ a ++ b → c ∈ a ++ n :: b := by
    intro c hc
    simp only [List.mem_append, List.mem_cons] at hc ⊢
    rcases hc with hc | hc
    · exact Or.inl hc
    · exact Or.inr (Or.inr hc)
  have hkn : ∀ c ∈ a ++ b, m.key c ≠ m.key n := fun c hc e =>
    hne c hc (h.keys c (hsub c hc) n (by simp) e)
  unfold remove
  rw [hlk]
  simp only
  refine ⟨⟨links_congr (unlink_ok h.links h.nodup) rfl rfl rfl rfl, ?_, ?_, ?_, ?_, ?_, ?_⟩, ?_, trivial, hf.1,
    fun x hx => store_other _ _ hx, hf.2.1⟩
  · exact (List.Sublist.append (List.Sublist.refl a) (List.sublist_cons_self n b)).nodup h.nodup
  · intro c hc
    simp only [hf.2.2]; exact h.below c (hsub c hc)
  · intro c hc d hd
    simp only [hf.1]; exact h.keys c (hsub c hc) d (hsub d hd)
  · intro x
    simp only [hf.1]
    by_cases hx : x = m.key n
    · subst hx
      rw [store_same]
      refine ⟨fun e => absurd rfl e, ?_⟩
      rintro ⟨c, hc, e⟩
      exact absurd e (hkn c hc)
    · rw [store_other _ _ hx, h.base x]
      constructor
      · rintro ⟨c, hc, e⟩
        refine ⟨c, ?_, e⟩
        simp only [List.mem_append, List.mem_cons] at hc ⊢
        rcases hc with hc | rfl | hc
        · exact Or.inl hc
        · exact absurd e.symm hx
        · exact Or.inr hc
      · rintro ⟨c, hc, e⟩; exact ⟨c, hsub c hc, e⟩
  · intro c hc
    simp only [hf.1, hf.2.1]; exact h.lookup c (hsub c hc)
  · simp only [if_neg hnb]
    rw [h.size]
    simp only [List.length_append, List.length_cons]
    omega
  · simp only [entriesOf, hf.1, List.map_append, List.map_cons, List.filter_append]
    have : ∀ l : List Node, (∀ c ∈ l, m.key c ≠ m.key n) →
        l.map (fun c => (m.key c, ((store m.base (m.key n) none) (m.key c)).bind id)) =
        (l.map (fun c => (m.key c, (m.base (m.key c)).bind id))).filter (fun e => e.1 ≠ m.key n) := by
      intro l hl
      rw [List.filter_eq_self.2]
      · apply List.map_congr_left
        intro c hc
        rw [store_other _ _ (hl c hc)]
      · intro e he
        obtain ⟨c, hc, rfl⟩ := List.mem_map.1 he
        simpa using hl c hc
    rw [this a (fun c hc => hkn c (by simp [hc])), this b (fun c hc => hkn c (by simp [hc]))]
    congr 1
    rw [List.filter_cons_of_neg (by simp)]

/-- A key may be removed if it is in the map or was never put into it. -/
def Usable (m : Map K V) : Op K V → Prop
  | .remove k => m.base k ≠ none ∨ m.lookup k = none
  | _ => True

theorem sweep_ok (del : K → Option V → Bool) : ∀ (rest : List Node) (done : List Node) (fuel : Nat)
    (m : Map K V), Good m (done ++ rest) → rest.length ≤ fuel →
    ∃ m' l', sweep del fuel m rest.head? = .ok (entriesOf m rest, m') ∧ Good m' l' ∧
      entriesOf m' l' = entriesOf m done ++ (entriesOf m rest).filter (fun e => !del e.1 e.2) ∧
      m'.lookup = m.lookup := by
  intro rest
  induction rest with
  | nil =>
    intro done fuel m h _
    refine ⟨m, done, by cases fuel <;> rfl, by simpa using h, by simp [entriesOf], rfl⟩
  | cons c rest ih =>
    intro done fuel m h hf
    cases fuel with
    | zero => simp at hf
    | succ fuel =>
      have hcb : m.base (m.key c) ≠ none := (h.base _).2 ⟨c, by simp, rfl⟩
      obtain ⟨v, hv⟩ : ∃ v, m.base (m.key c) = some v := by
        cases hb : m.base (m.key c) with
        | none => exact absurd hb hcb
        | some v => exact ⟨v, rfl⟩
      have hnx : m.next c = rest.head? := (h.links.links done c rest rfl).1
      unfold sweep
      simp only [List.head?_cons, itNext, hv, Option.map_some, Except.bind]
      cases hd : del (m.key c) v with
      | false =>
        simp only [Bool.false_eq_true, if_false]
        obtain ⟨m', l', e1, e2, e3, e4⟩ := ih (done ++ [c]) fuel m (by simpa using h) (by simpa using hf)
        rw [hnx, e1]
        refine ⟨m', l', by simp [entriesOf, hv], e2, ?_, e4⟩
        rw [e3]
        simp [entriesOf, hv, hd]
      | true =>
        simp only [if_true]
        obtain ⟨r1, r2, _, r4, r5, r6⟩ := remove_present h
        have hrem : itRemove m (m.next c) = .ok (remove m (m.key c)).2 := by
          rw [hnx]
          unfold itRemove
          cases rest with
          | nil =>
            simp only [List.head?_nil]
            rw [h.links.last]
            simp
          | cons d rest =>
            simp only [List.head?_cons]
            have := (h.links.links (done ++ [c]) d rest (by simp)).2
            rw [this]
            simp
        rw [hrem]
        simp only
        obtain ⟨m', l', e1, e2, e3, e4⟩ := ih done fuel (remove m (m.key c)).2 r1 (by simpa using hf)
        rw [hnx, e1]
        have hsame : ∀ l : List Node, (∀ d ∈ l, m.key d ≠ m.key c) →
            entriesOf (remove m (m.key c)).2 l = entriesOf m l := by
          intro l hl
          unfold entriesOf
          apply List.map_congr_left
          intro d hd'
          rw [r4, r5 _ (hl d hd')]
        have hne : ∀ d ∈ done ++ rest, m.key d ≠ m.key c := by
          intro d hd' e
          have hn := h.nodup
          rw [List.nodup_append] at hn
          have hmem : d ∈ done ++ c :: rest := by
            simp only [List.mem_append, List.mem_cons] at hd' ⊢
            rcases hd' with h | h
            · exact Or.inl h
            · exact Or.inr (Or.inr h)
          have := h.keys d hmem c (by simp) e
          subst this
          rcases List.mem_append.1 hd' with h' | h'
          · exact hn.2.2 d h' d (by simp) rfl
          · exact (List.nodup_cons.1 hn.2.1).1 h'
        rw [hsame rest (fun d hd' => hne d (by simp [hd']))] at e3 ⊢
        rw [hsame done (fun d hd' => hne d (by simp [hd']))] at e3
        refine ⟨m', l', by simp [entriesOf, hv], e2, ?_, by rw [e4, r6]⟩
        rw [e3]
        simp [entriesOf, hv, hd]

theorem exec_ok {m : Map K V} {l : List Node} (h : Good m l) (op : Op K V) (hu : Usable m op) :
    ∃ m' l', exec m op = .ok ((spec (entriesOf m l) op).1, m') ∧ Good m' l' ∧
      entriesOf m' l' = (spec (entriesOf m l) op).2 ∧
      (∀ x, m.lookup x = none → (∀ v, op ≠ .put x v) → m'.lookup x = none) := by
  cases op with
  | put k v =>
    obtain ⟨m', l', e1, e2, e3, e4⟩ := put_ok h k v
    refine ⟨m', l', ?_, e2, e3, fun x hx hn => e4 x hx (fun e => hn v (by rw [e]))⟩
    simp only [exec, e1, Except.bind, spec, value_in h]
  | get k => exact ⟨m, l, by simp only [exec, spec, value_in h], h, rfl, fun x hx _ => hx⟩
  | containsKey k => exact ⟨m, l, by simp only [exec, spec, value_in h], h, rfl, fun x hx _ => hx⟩
  | size => exact ⟨m, l, by simp [exec, spec, h.size, entriesOf], h, rfl, fun x hx _ => hx⟩
  | clear =>
    refine ⟨clear m, [], rfl, ⟨⟨rfl, rfl, by simp⟩, by simp, by simp, by simp, by simp [clear], by simp, rfl⟩,
      rfl, fun x hx _ => hx⟩
  | remove k =>
    simp only [exec, spec, value_in h]
    by_cases hb : m.base k = none
    · have hlk : m.lookup k = none := by
        rcases hu with h1 | h1
        · exact absurd hb h1
        · exact h1
      refine ⟨m, l, ?_, h, ?_, fun x hx _ => hx⟩
      · simp [remove, hlk, hb]
      · rw [List.filter_eq_self.2]
        intro e he
        obtain ⟨c, hc, rfl⟩ := List.mem_map.1 he
        simp only [ne_eq, decide_not, Bool.not_eq_true', decide_eq_false_iff_not]
        exact fun e' => (h.base k).2 ⟨c, hc, e'⟩ hb
    · obtain ⟨c, hc, rfl⟩ := (h.base k).1 hb
      obtain ⟨a, b, rfl⟩ := List.append_of_mem hc
      obtain ⟨r1, r2, r3, _, _, r6⟩ := remove_present h
      exact ⟨_, a ++ b, by rw [r3], r1, r2, fun x hx _ => by rw [r6]; exact hx⟩
  | sweep del =>
    obtain ⟨m', l', e1, e2, e3, e4⟩ := sweep_ok del l [] m.fresh m (by simpa using h)
      (by
        have := List.Nodup.length_le_of_subset h.nodup (l₂ := List.range m.fresh)
          (fun c hc => List.mem_range.2 (h.below c hc))
        simpa using this)
    refine ⟨m', l', ?_, e2, by simpa [entriesOf, spec] using e3, fun x hx _ => by rw [e4]; exact hx⟩
    simp only [exec, h.links.first, e1, Except.bind, spec]

/-! ### Histories -/

def runCode (m : Map K V) : List (Op K V) → Except Exn (List (Res K V))
  | [] => .ok []
  | op :: ops => (exec m op).bind fun r => (runCode r.2 ops).bind fun rs => .ok (r.1 :: rs)

def runSpec (es : List (K × Option V)) : List (Op K V) → List (Res K V)
  | [] => []
  | op :: ops => (spec es op).1 :: runSpec (spec es op).2 ops

/-- The keys put so far. -/
def seenAfter (seen : List K) : Op K V → List K
  | .put k _ => k :: seen
  | _ => seen

/-- No key is removed that was put earlier but is not in the map (`seen` are the keys put so far). -/
def NoStale (es : List (K × Option V)) (seen : List K) : List (Op K V) → Prop
  | [] => True
  | op :: ops =>
    (match op with
      | .remove k => (valueIn es k).isSome ∨ k ∉ seen
      | _ => True) ∧
    NoStale (spec es op).2 (seenAfter seen op) ops

theorem run_ok : ∀ (ops : List (Op K V)) {m : Map K V} {l : List Node} (seen : List K), Good m l →
    (∀ x, x ∉ seen → m.lookup x = none) → NoStale (entriesOf m l) seen ops →
    runCode m ops = .ok (runSpec (entriesOf m l) ops) := by
  intro ops
  induction ops with
  | nil => intro m l seen _ _ _; rfl
  | cons op ops ih =>
    intro m l seen h hs hn
    obtain ⟨hn1, hn2⟩ := hn
    have hu : Usable m op := by
      cases op with
      | remove k =>
        simp only [value_in h] at hn1
        rcases hn1 with h1 | h1
        · exact Or.inl (fun e => by rw [e] at h1; cases h1)
        · exact Or.inr (hs k h1)
      | _ => trivial
    obtain ⟨m', l', e1, e2, e3, e4⟩ := exec_ok h op hu
    have := ih (m := m') (l := l') (seenAfter seen op) e2
      (by
        intro x hx
        refine e4 x (hs x ?_) ?_
        · intro hm; apply hx
          cases op <;> first | exact hm | exact List.mem_cons_of_mem _ hm
        · rintro v rfl
          exact hx (by simp [seenAfter]))
      (by rw [e3]; exact hn2)
    simp only [runCode, e1, Except.bind, this, runSpec, e3]

/-- C67, for histories in which no key is removed that was in the map before but is no longer: every result is
that of a map that keeps the order in which its keys were put into it, and an iteration delivers the entries in
this order and removes exactly those it is told to.  (The full claim would be without the condition; see
`order_lost` and `clear_undone`.) -/
theorem keeps_order_partial (d : K) (ops : List (Op K V)) (hn : NoStale [] [] ops) :
    runCode (empty d : Map K V) ops = .ok (runSpec [] ops) :=
  run_ok ops [] (good_empty d) (fun _ _ => rfl) hn

/-- The condition is met by a history with replacement, removal, re-insertion and an iteration that removes. -/
example : NoStale ([] : List (Nat × Option Nat)) [] [.put 1 (some 10), .put 2 (some 20), .put 3 none, .put 1 (some 11),
      .remove 2, .put 2 (some 22), .remove 9, .sweep (fun k _ => k == 3), .sweep (fun _ _ => false)] ∧
    runSpec ([] : List (Nat × Option Nat)) [.put 1 (some 10), .put 2 (some 20), .put 3 none, .put 1 (some 11),
      .remove 2, .put 2 (some 22), .remove 9, .sweep (fun k _ => k == 3), .sweep (fun _ _ => false)] =
    [.val none, .val none, .val none, .val (some 10), .val (some 20), .val none, .val none,
      .entries [(1, some 11), (3, none), (2, some 22)], .entries [(1, some 11), (2, some 22)]] := by
  refine ⟨?_, by decide +kernel⟩
  simp [NoStale, spec, valueIn, seenAfter]

/-- C67 (limit of the code): removing a key a second time takes a later key out of the order: it is in the map, it
counts, but no iteration delivers it. -/
theorem order_lost : runCode (empty 0 : Map Nat Nat) [.put 1 (some 10), .put 2 (some 20), .remove 2, .put 3 (some 30),
      .remove 2, .containsKey 3, .size, .sweep (fun _ _ => false)] =
    .ok [.val none, .val none, .val (some 20), .val none, .val none, .bool true, .int 2, .entries [(1, some 10)]] := by
  decide +kernel

/-- C67 (limit of the code): removing, after `clear`, a key that was in the map brings back the key put behind it: the
map is empty, but an iteration delivers null, and using the entry is a null pointer. -/
theorem clear_undone : runCode (empty 0 : Map Nat Nat) [.put 1 (some 10), .put 2 (some 20), .clear, .remove 1, .size] =
      .ok [.val none, .val none, .unit, .val none, .int 0] ∧
    runCode (empty 0 : Map Nat Nat) [.put 1 (some 10), .put 2 (some 20), .clear, .remove 1, .sweep (fun _ _ => false)] =
      .error .nullPointer := by
  constructor <;> decide +kernel

/-! ### The iterator's own operations -/

/-- C67 (limit of the code): `remove` of an iterator that is called twice removes the element before as well, instead
of being refused; called before `next` it is a null pointer. -/
theorem removes_twice : ∃ m m1 m2 : Map Nat Nat, ∃ (e1 e2 : Option (Nat × Option Nat)) (c1 c2 : Option Node),
    (put (empty 0 : Map Nat Nat) 1 (some 10)).bind (fun r => (put r.2 2 (some 20)).bind fun r => .ok r.2) = .ok m ∧
    itRemove m m.first = .error .nullPointer ∧
    itNext m m.first = .ok (e1, c1) ∧ itNext m c1 = .ok (e2, c2) ∧ e2 = some (2, some 20) ∧
    itRemove m c2 = .ok m1 ∧ m1.base 2 = none ∧ m1.base 1 = some (some 10) ∧
    itRemove m1 c2 = .ok m2 ∧ m2.base 1 = none ∧ m2.size = 0 :=
  ⟨_, _, _, _, _, _, _, rfl, rfl, rfl, rfl, rfl, rfl, rfl, rfl, rfl, rfl, rfl⟩

end Avian.LinkedHashMap
