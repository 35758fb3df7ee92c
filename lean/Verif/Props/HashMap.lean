import Verif.Util.HashMapLemmas

/-
Properties C07 (hash tables behave as maps), C08 (weak tables drop only dead keys) and
C14 (interning is canonical).

The specification is a function from probe keys to the entry stored under an equal key.
-/
namespace Avian.HashMap
open Avian.Math

variable {K V : Type}

/-! ### Specification -/

/-- The abstract table: the entry that answers a probe with key `q`, and the number of entries. -/
structure Spec (K V : Type) where
  entry : K → Option (K × V)
  size : Nat

/-- The empty table. -/
def Spec.empty : Spec K V := ⟨fun _ => none, 0⟩

variable [DecidableEq K]

/-- Forget the entry whose key is the object `k` itself. -/
def forget (k : K) (o : Option (K × V)) : Option (K × V) :=
  o.filter (fun e => decide (e.1 ≠ k))

/-- The effect of one collector action: a cleared key is visible only in weak tables; a finalizer
removes exactly the object's own entry. -/
def Spec.gcStep (weak : Bool) (S : Spec K V) : Gc K → Spec K V
  | .die k => if weak then ⟨fun q => forget k (S.entry q), S.size⟩ else S
  | .drop k =>
    ⟨fun q => forget k (S.entry q),
     S.size - if (S.entry k).any (fun e => decide (e.1 = k)) then 1 else 0⟩

/-- The effect of one collection. -/
def Spec.gc (weak : Bool) : Spec K V → List (Gc K) → Spec K V
  | S, [] => S
  | S, g :: gs => Spec.gc weak (S.gcStep weak g) gs

/-- Add an entry. -/
def Spec.add (eq : K → K → Bool) (S : Spec K V) (k : K) (v : V) : Spec K V :=
  ⟨fun q => if eq q k then some (k, v) else S.entry q, S.size + 1⟩

/-- Replace the value under a key, keeping the stored key object. -/
def Spec.replace (eq : K → K → Bool) (S : Spec K V) (k : K) (v : V) : Spec K V :=
  ⟨fun q => if eq q k then (S.entry q).map (fun e => (e.1, v)) else S.entry q, S.size⟩

/-- Remove the entry under a key. -/
def Spec.erase (eq : K → K → Bool) (S : Spec K V) (k : K) : Spec K V :=
  ⟨fun q => if eq q k then none else S.entry q, S.size - if (S.entry k).isSome then 1 else 0⟩

/-- The laws that the callers' equality and hash functions satisfy. -/
structure EqLaws (c : Cfg K) (eq : K → K → Bool) : Prop where
  refl : ∀ a, eq a a = true
  symm : ∀ a b, eq a b = true → eq b a = true
  trans : ∀ a b d, eq a b = true → eq b d = true → eq a d = true
  hash : ∀ a b, eq a b = true → c.hash a = c.hash b

/-- The table operations available to the VM, with the collections that may happen inside. -/
inductive Op (K V : Type) where
  | find (q : K)
  | insertMaybe (k : K) (v : V) (g1 g2 g3 : List (Gc K))
  | insertOrReplace (k : K) (v : V) (g1 g2 g3 : List (Gc K))
  | remove (k : K) (g : List (Gc K))
  | collect (g : List (Gc K))

/-- What an operation returns. -/
inductive Out (K V : Type) where
  | found (e : Option (K × V))
  | flag (b : Bool)
  | removed (v : Option V)
  | done

/-- One operation on the model.  `none`: undefined behaviour or no return. -/
def step (c : Cfg K) (eq : K → K → Bool) (s : St K V) : Op K V → Option (St K V × Out K V)
  | .find q => some (s, .found (findNode c eq s q))
  | .insertMaybe k v g1 g2 g3 =>
    (insertMaybe c eq g1 g2 g3 s k v).map (fun r => (r.1, .flag r.2))
  | .insertOrReplace k v g1 g2 g3 =>
    (insertOrReplace c eq g1 g2 g3 s k v).map (fun r => (r.1, .flag r.2))
  | .remove k g => (remove c eq g s k).map (fun r => (r.1, .removed r.2))
  | .collect g => some (gc c s g, .done)

/-- A history on the model. -/
def run (c : Cfg K) (eq : K → K → Bool) : St K V → List (Op K V) → Option (St K V × List (Out K V))
  | s, [] => some (s, [])
  | s, o :: os =>
    match step c eq s o with
    | none => none
    | some (s', out) =>
      match run c eq s' os with
      | none => none
      | some (s'', outs) => some (s'', out :: outs)

/-- One operation of the specification.  The collections of a resize happen or not, which is the
only freedom. -/
inductive SpecStep (weak : Bool) (eq : K → K → Bool) :
    Spec K V → Op K V → Out K V → Spec K V → Prop
  | find (S q) : SpecStep weak eq S (.find q) (.found (S.entry q)) S
  | insertMaybeNew (S k v g1 g2 g3 g1' g3') (h : S.entry k = none)
      (h1 : g1' = g1 ∨ g1' = []) (h3 : g3' = g3 ∨ g3' = []) :
      SpecStep weak eq S (.insertMaybe k v g1 g2 g3) (.flag true)
        ((((S.gc weak g1').gc weak g2).add eq k v).gc weak g3')
  | insertMaybeOld (S k v g1 g2 g3) (h : S.entry k ≠ none) :
      SpecStep weak eq S (.insertMaybe k v g1 g2 g3) (.flag false) S
  | insertNew (S k v g1 g2 g3 g1' g3') (h : S.entry k = none)
      (h1 : g1' = g1 ∨ g1' = []) (h3 : g3' = g3 ∨ g3' = []) :
      SpecStep weak eq S (.insertOrReplace k v g1 g2 g3) (.flag true)
        ((((S.gc weak g1').gc weak g2).add eq k v).gc weak g3')
  | replace (S k v g1 g2 g3) (h : S.entry k ≠ none) :
      SpecStep weak eq S (.insertOrReplace k v g1 g2 g3) (.flag false) (S.replace eq k v)
  | remove (S k g g') (h : g' = g ∨ g' = []) :
      SpecStep weak eq S (.remove k g) (.removed ((S.entry k).map (·.2)))
        ((S.erase eq k).gc weak g')
  | collect (S g) : SpecStep weak eq S (.collect g) .done (S.gc weak g)

/-- A history of the specification. -/
inductive SpecRun (weak : Bool) (eq : K → K → Bool) :
    Spec K V → List (Op K V) → List (Out K V) → Spec K V → Prop
  | nil (S) : SpecRun weak eq S [] [] S
  | cons (S S' S'' o out os outs) : SpecStep weak eq S o out S' → SpecRun weak eq S' os outs S'' →
      SpecRun weak eq S (o :: os) (out :: outs) S''

/-- The keys that a collection clears. -/
def killed : List (Gc K) → List K
  | [] => []
  | .die k :: g => k :: killed g
  | .drop _ :: g => killed g

/-- The keys that an operation may clear. -/
def opKilled : Op K V → List K
  | .find _ => []
  | .insertMaybe _ _ g1 g2 g3 => killed g1 ++ killed g2 ++ killed g3
  | .insertOrReplace _ _ g1 g2 g3 => killed g1 ++ killed g2 ++ killed g3
  | .remove _ g => killed g
  | .collect g => killed g

/-- A collected object is never passed to an insertion again, and the object being inserted is
protected while it is inserted (src/util.cpp:414-426 `PROTECT`).  `d`: objects collected so
far. -/
def Valid : List K → List (Op K V) → Prop
  | _, [] => True
  | d, o :: os =>
    (match o with
     | .insertMaybe k _ g1 g2 _ => k ∉ d ++ killed g1 ++ killed g2
     | .insertOrReplace k _ g1 g2 _ => k ∉ d ++ killed g1 ++ killed g2
     | _ => True) ∧ Valid (d ++ opKilled o) os

/-- The number of insertions in a history. -/
def inserts : List (Op K V) → Nat
  | [] => 0
  | .insertMaybe .. :: os => inserts os + 1
  | .insertOrReplace .. :: os => inserts os + 1
  | _ :: os => inserts os

/-! ### The entries represented by a list -/

/-- `L` lists the entries of the abstract table, one per key. -/
def Rep (eq : K → K → Bool) (L : List (K × V)) (f : K → Option (K × V)) : Prop :=
  L.Pairwise (fun a b => eq a.1 b.1 = false) ∧
  ∀ q e, f q = some e ↔ (e ∈ L ∧ eq q e.1 = true)

variable {c : Cfg K} {eq : K → K → Bool}

private theorem eq_false_symm (E : EqLaws c eq) {a b : K} (h : eq a b = false) :
    eq b a = false := by
  cases h' : eq b a with
  | false => rfl
  | true => rw [E.symm _ _ h'] at h; exact h

private theorem Rep.perm (E : EqLaws c eq) {L L' : List (K × V)} {f : K → Option (K × V)}
    (h : Rep eq L f) (p : L.Perm L') : Rep eq L' f := by
  refine ⟨(p.pairwise_iff (fun h => eq_false_symm E h)).mp h.1, ?_⟩
  intro q e
  rw [h.2 q e, p.mem_iff]

private theorem Rep.absent {L : List (K × V)} {f : K → Option (K × V)} (h : Rep eq L f) (q : K) :
    f q = none ↔ ∀ e ∈ L, eq q e.1 = false := by
  constructor
  · intro hn e he
    cases h' : eq q e.1 with
    | false => rfl
    | true => have := (h.2 q e).mpr ⟨he, h'⟩; rw [hn] at this; cases this
  · intro hall
    cases hf : f q with
    | none => rfl
    | some e =>
      obtain ⟨h1, h2⟩ := (h.2 q e).mp hf
      rw [hall e h1] at h2; cases h2

private theorem Rep.add (E : EqLaws c eq) {L : List (K × V)} {f : K → Option (K × V)}
    (h : Rep eq L f) (k : K) (v : V) (hn : f k = none) :
    Rep eq ((k, v) :: L) (fun q => if eq q k then some (k, v) else f q) := by
  have hk := (h.absent k).mp hn
  refine ⟨List.pairwise_cons.mpr ⟨hk, h.1⟩, ?_⟩
  intro q e
  by_cases hq : eq q k = true
  · simp only [hq, if_true]
    constructor
    · intro he; cases he; exact ⟨by simp, hq⟩
    · rintro ⟨hm, he⟩
      rcases List.mem_cons.mp hm with rfl | hm
      · rfl
      · have h1 := hk e hm
        rw [E.trans k q e.1 (E.symm _ _ hq) he] at h1
        cases h1
  · simp only [hq, Bool.false_eq_true, if_false]
    rw [h.2 q e]
    constructor
    · rintro ⟨hm, he⟩; exact ⟨List.mem_cons_of_mem _ hm, he⟩
    · rintro ⟨hm, he⟩
      rcases List.mem_cons.mp hm with rfl | hm
      · exact absurd he hq
      · exact ⟨hm, he⟩

private theorem Rep.tail (E : EqLaws c eq) {L : List (K × V)} {f : K → Option (K × V)}
    {k : K} {v : V} (h : Rep eq ((k, v) :: L) f) :
    Rep eq L (fun q => if eq q k then none else f q) ∧ f k = some (k, v) := by
  obtain ⟨hp, hf⟩ := h
  obtain ⟨hk, hL⟩ := List.pairwise_cons.mp hp
  refine ⟨⟨hL, ?_⟩, (hf k (k, v)).mpr ⟨by simp, E.refl k⟩⟩
  intro q e
  by_cases hq : eq q k = true
  · simp only [hq, if_true]
    constructor
    · intro h; cases h
    · rintro ⟨hm, he⟩
      have h1 := hk e hm
      rw [E.trans k q e.1 (E.symm _ _ hq) he] at h1
      cases h1
  · simp only [hq, Bool.false_eq_true, if_false]
    rw [hf q e]
    constructor
    · rintro ⟨hm, he⟩
      rcases List.mem_cons.mp hm with rfl | hm
      · exact absurd he hq
      · exact ⟨hm, he⟩
    · rintro ⟨hm, he⟩; exact ⟨List.mem_cons_of_mem _ hm, he⟩

private theorem Rep.key (E : EqLaws c eq) {L : List (K × V)} {f : K → Option (K × V)}
    (h : Rep eq L f) {q q' : K} (hq : eq q q' = true) : f q = f q' := by
  have : ∀ e, f q = some e ↔ f q' = some e := by
    intro e
    rw [h.2, h.2]
    constructor
    · rintro ⟨a, b⟩; exact ⟨a, E.trans _ _ _ (E.symm _ _ hq) b⟩
    · rintro ⟨a, b⟩; exact ⟨a, E.trans _ _ _ hq b⟩
  cases hf : f q with
  | none =>
    cases hf' : f q' with
    | none => rfl
    | some e => rw [(this e).mpr hf'] at hf; cases hf
  | some e => rw [(this e).mp hf]

omit [DecidableEq K] in
private theorem pairwise_filter {R : K × V → K × V → Prop} {L : List (K × V)} (p : K × V → Bool)
    (h : L.Pairwise R) : (L.filter p).Pairwise R := h.filter p

private theorem Rep.forgets (E : EqLaws c eq) {L : List (K × V)} {f : K → Option (K × V)}
    (h : Rep eq L f) (k : K) :
    Rep eq (L.filter (fun e => decide (e.1 ≠ k))) (fun q => forget k (f q)) := by
  refine ⟨pairwise_filter _ h.1, ?_⟩
  intro q e
  simp only [HashMap.forget, Option.filter_eq_some_iff, List.mem_filter]
  rw [h.2 q e]
  constructor
  · rintro ⟨⟨a, b⟩, d⟩; exact ⟨⟨a, d⟩, b⟩
  · rintro ⟨⟨a, d⟩, b⟩; exact ⟨⟨a, b⟩, d⟩

/-- Taking out the entry of the object `k` itself. -/
private theorem Rep.forget_tail (E : EqLaws c eq) {L : List (K × V)} {f : K → Option (K × V)}
    {k : K} {v : V} (h : Rep eq ((k, v) :: L) f) : Rep eq L (fun q => HashMap.forget k (f q)) := by
  have hp := List.pairwise_cons.mp h.1
  have := h.forgets E k
  have hL : L.filter (fun e => decide (e.1 ≠ k)) = L := by
    rw [List.filter_eq_self]
    intro e he
    have := hp.1 e he
    simp only [decide_eq_true_eq]
    rintro heq
    rw [heq, E.refl] at this
    cases this
  rw [List.filter_cons, if_neg (by simp), hL] at this
  exact this

/-- An object that is not stored can be forgotten. -/
private theorem forget_absent {L : List (K × V)} {f : K → Option (K × V)}
    (h : Rep eq L f) {k : K} (hk : ∀ e ∈ L, e.1 ≠ k) : (fun q => forget k (f q)) = f := by
  funext q
  cases hf : f q with
  | none => rfl
  | some e =>
    have := hk e ((h.2 q e).mp hf).1
    simp [forget, Option.filter, this]

/-! ### The invariant -/

/-- The relation between a table and the abstract table.  `b` bounds the array length, `d` is the
number of announced but not yet linked entries, `n` bounds the recorded size. -/
structure R (c : Cfg K) (eq : K → K → Bool) (b d n : Nat) (s : St K V) (S : Spec K V) : Prop where
  wf : WF c b s
  pow : ∀ a, s.map.array = some a → ∃ k, a.length = 2 ^ k
  rep : Rep eq (live c s) S.entry
  cnt : (contents s).length + d ≤ s.map.size.toNat
  cntS : c.weak = false → (contents s).length + d = s.map.size.toNat
  specS : c.weak = false → (contents s).length = S.size
  size : s.map.size.toNat ≤ n

omit [DecidableEq K] in
private theorem live_none {s : St K V} (h : s.map.array = none) : live c s = [] := by
  simp [live, contents, h]

omit [DecidableEq K] in
private theorem live_strong {s : St K V} (h : c.weak = false) : live c s = contents s := by
  simp [live, alive, h]

omit [DecidableEq K] in
/-- Entries in other chains have another hash. -/
private theorem other_chain {a : List (List (K × V))} (hp : Placed c a) {e : K × V} {key : K}
    (ec : ∀ a b, eq a b = true → c.hash a = c.hash b)
    (h : ∃ j, ∃ hj : j < a.length, j ≠ index (c.hash key) a.length ∧ e ∈ a[j]) :
    eq key e.1 = false := by
  obtain ⟨j, hj, hne, hm⟩ := h
  cases h' : eq key e.1 with
  | false => rfl
  | true =>
    have := hp j hj e hm
    rw [← ec _ _ h'] at this
    exact absurd this.symm hne

omit [DecidableEq K] in
/-- `removeNoResize` takes out at most one live entry, the one with an equal key. -/
private theorem removeNoResize_spec (ec : ∀ a b, eq a b = true → c.hash a = c.hash b)
    {b d : Nat} {s : St K V} (hb : b ≤ 2 ^ 32) (wf : WF c b s)
    (cnt : (contents s).length + d ≤ s.map.size.toNat)
    (cntS : c.weak = false → (contents s).length + d = s.map.size.toNat) (key : K) :
    let r := removeNoResize c eq s key
    WF c b r.1 ∧ r.1.dead = s.dead ∧ (len r.1 = len s) ∧
    (r.1.map.array = none ↔ s.map.array = none) ∧
    (contents r.1).length + d ≤ r.1.map.size.toNat ∧
    (c.weak = false → (contents r.1).length + d = r.1.map.size.toNat) ∧
    r.1.map.size.toNat ≤ s.map.size.toNat ∧
    (c.weak = false → (contents s).length =
      (contents r.1).length + if r.2.isSome then 1 else 0) ∧
    ((r.2 = none ∧ (live c s).Perm (live c r.1) ∧ ∀ e ∈ live c s, eq key e.1 = false) ∨
     (∃ k v, r.2 = some v ∧ eq key k = true ∧ (live c s).Perm ((k, v) :: live c r.1))) := by
  intro r
  cases ha : s.map.array with
  | none =>
    have hr : r = (s, none) := by simp [r, removeNoResize, ha]
    rw [hr]
    refine ⟨wf, rfl, rfl, by simp [ha], cnt, cntS, Nat.le_refl _, by simp, Or.inl ⟨rfl, List.Perm.refl _, ?_⟩⟩
    simp [live_none ha]
  | some a =>
    obtain ⟨h0, hab, hp⟩ := wf a ha
    have hi : index (c.hash key) a.length < a.length := index_lt _ h0 (by omega)
    obtain ⟨r1, r2, r3, r4⟩ := removeChain_spec c s.dead eq key
      (a.getD (index (c.hash key) a.length) [])
    obtain ⟨rest, p1, p2, p3⟩ := set_split a _ hi (removeChain c s.dead eq key
      (a.getD (index (c.hash key) a.length) [])).1
    have hr : r = removeNoResize c eq s key := rfl
    simp only [removeNoResize, ha] at hr
    generalize hch : a.getD (index (c.hash key) a.length) [] = ch at *
    generalize hrm : removeChain c s.dead eq key ch = rm at *
    have hcs : contents s = a.flatten := by simp [contents, ha]
    have hcr : contents r.1 = (a.set (index (c.hash key) a.length) rm.1).flatten := by
      simp [hr, contents]
    have l1 := p1.length_eq
    have l2 := p2.length_eq
    simp only [List.length_append] at l1 l2
    rw [hcs] at cnt cntS
    have hsz : r.1.map.size.toNat = s.map.size.toNat - rm.2.1 := by
      have : r.1.map.size = s.map.size - BitVec.ofNat 32 rm.2.1 := by simp [hr]
      have hlt := s.map.size.isLt
      rw [this, BitVec.toNat_sub, BitVec.toNat_ofNat]
      omega
    have hls : (live c s).Perm (ch.filter (alive c s.dead) ++ rest.filter (alive c s.dead)) := by
      rw [live, hcs, ← List.filter_append]
      exact p1.filter _
    have hlr : (live c r.1).Perm (rm.1.filter (alive c s.dead) ++ rest.filter (alive c s.dead)) := by
      have hd : r.1.dead = s.dead := by simp [hr]
      rw [live, hcr, hd, ← List.filter_append]
      exact p2.filter _
    have hrest : ∀ e ∈ rest, eq key e.1 = false := fun e he =>
      other_chain hp ec (p3 e he)
    refine ⟨?_, by simp [hr], by simp [hr, len, ha], by simp [hr], ?_, ?_, by omega, ?_, ?_⟩
    · intro a' ha'
      have : a' = a.set (index (c.hash key) a.length) rm.1 := by simpa [hr] using ha'.symm
      subst this
      refine ⟨by simpa using h0, by simpa using hab, set_placed c a _ _ hp hi ?_⟩
      intro e he
      rw [hch]
      exact ⟨e, r2 e he, rfl⟩
    · rw [hcr]; omega
    · intro hw; have := cntS hw; rw [hcr]; omega
    · intro hw
      have h1 := r3 hw
      have h2 : r.2 = rm.2.2 := by simp [hr]
      rw [hcr, hcs, h2]; omega
    · rcases r4 with ⟨q1, q2, q3⟩ | ⟨k, v, q1, q2, q3⟩
      · refine Or.inl ⟨by simp [hr, q1], ?_, ?_⟩
        · rw [q2] at hlr; exact hls.trans hlr.symm
        · intro e he
          rw [hls.mem_iff, List.mem_append] at he
          rcases he with he | he
          · exact q3 e he
          · exact hrest e (List.mem_filter.mp he).1
      · refine Or.inr ⟨k, v, by simp [hr, q1], q2, ?_⟩
        refine hls.trans ?_
        refine ((List.perm_append_right_iff _).mpr q3).trans ?_
        exact (hlr.symm.cons (k, v))

private theorem findNode_spec (E : EqLaws c eq) {b : Nat} {s : St K V} {f : K → Option (K × V)}
    (hb : b ≤ 2 ^ 32) (wf : WF c b s) (rep : Rep eq (live c s) f) (q : K) :
    findNode c eq s q = f q := by
  cases ha : s.map.array with
  | none =>
    have : ∀ e ∈ live c s, eq q e.1 = false := by simp [live_none ha]
    rw [((rep.absent q).mpr this)]
    simp [findNode, ha]
  | some a =>
    obtain ⟨h0, hab, hp⟩ := wf a ha
    have hi : index (c.hash q) a.length < a.length := index_lt _ h0 (by omega)
    obtain ⟨rest, p1, _, p3⟩ := set_split a _ hi []
    have hls : (live c s).Perm
        ((a.getD (index (c.hash q) a.length) []).filter (alive c s.dead) ++
          rest.filter (alive c s.dead)) := by
      rw [live, contents, ha, ← List.filter_append]
      exact p1.filter _
    simp only [findNode, ha]
    rcases findChain_spec c s.dead eq q (a.getD (index (c.hash q) a.length) []) with
      ⟨h1, h2⟩ | ⟨e, h1, h2, h3⟩
    · rw [h1]
      refine ((rep.absent q).mpr ?_).symm
      intro e he
      rw [hls.mem_iff, List.mem_append] at he
      rcases he with he | he
      · exact h2 e he
      · exact other_chain hp E.hash (p3 e (List.mem_filter.mp he).1)
    · rw [h2]
      refine ((rep.2 q e).mpr ⟨?_, h3⟩).symm
      rw [hls.mem_iff, List.mem_append]
      exact Or.inl h1

private theorem contents_die {s : St K V} {k : K} :
    contents (gcStep c s (.die k)) = contents s := rfl

private theorem live_die {s : St K V} (k : K) (hw : c.weak = true) :
    live c (gcStep c s (.die k)) = (live c s).filter (fun e => decide (e.1 ≠ k)) := by
  simp only [live, contents_die, List.filter_filter]
  congr 1
  funext e
  simp only [alive, gcStep, hw, Bool.true_and]
  by_cases h : e.1 = k <;> simp [h]

private theorem live_die_strong {s : St K V} (k : K) (hw : c.weak = false) :
    live c (gcStep c s (.die k)) = live c s := by
  rw [live_strong hw, live_strong hw, contents_die]

theorem gcStep_R (E : EqLaws c eq) {b d n : Nat} {s : St K V} {S : Spec K V} (hb : b ≤ 2 ^ 32)
    (h : R c eq b d n s S) (g : Gc K) :
    R c eq b d n (gcStep c s g) (S.gcStep c.weak g) ∧
    ((gcStep c s g).map.array = none ↔ s.map.array = none) := by
  cases g with
  | die k =>
    refine ⟨⟨h.wf, h.pow, ?_, h.cnt, h.cntS, ?_, h.size⟩, Iff.rfl⟩
    · cases hw : c.weak with
      | true =>
        rw [live_die k hw]
        simpa [Spec.gcStep] using h.rep.forgets E k
      | false =>
        rw [live_die_strong k hw]
        simpa [Spec.gcStep] using h.rep
    · intro hw
      rw [contents_die]
      simpa [Spec.gcStep, hw] using h.specS hw
  | drop k =>
    have ec : ∀ a b : K, (a == b) = true → c.hash a = c.hash b := by
      intro a b hab; rw [eq_of_beq hab]
    obtain ⟨q1, q2, q3, q4, q5, q6, q7, q8, q9⟩ :=
      removeNoResize_spec (eq := fun a b => a == b) ec hb h.wf h.cnt h.cntS k
    have hpow : ∀ a, (removeNoResize c (fun a b => a == b) s k).1.map.array = some a →
        ∃ k, a.length = 2 ^ k := by
      intro a ha
      cases hs : s.map.array with
      | none => rw [q4.mpr hs] at ha; cases ha
      | some a0 =>
        obtain ⟨k, hk⟩ := h.pow a0 hs
        simp only [len, ha, hs] at q3
        exact ⟨k, by omega⟩
    refine ⟨⟨q1, hpow, ?_, q5, q6, ?_, Nat.le_trans q7 h.size⟩, q4⟩
    · rcases q9 with ⟨w1, w2, w3⟩ | ⟨k', v, w1, w2, w3⟩
      · have hnk : ∀ e ∈ live c s, e.1 ≠ k := by
          intro e he hek
          have := w3 e he
          simp [hek] at this
        show Rep eq _ (fun q => forget k (S.entry q))
        rw [forget_absent h.rep hnk]
        exact h.rep.perm E w2
      · have : k = k' := eq_of_beq w2
        subst this
        exact (h.rep.perm E w3).forget_tail E
    · intro hw
      have h8 := q8 hw
      have hS := h.specS hw
      show _ = S.size - _
      rcases q9 with ⟨w1, w2, w3⟩ | ⟨k', v, w1, w2, w3⟩
      · have : (S.entry k).any (fun e => decide (e.1 = k)) = false := by
          cases he : S.entry k with
          | none => rfl
          | some e =>
            have := w3 e ((h.rep.2 k e).mp he).1
            have hne : ¬ e.1 = k := by
              intro hek; simp [hek] at this
            simp [Option.any, hne]
        rw [this]
        simp only [w1, Option.isSome_none] at h8
        show _ = S.size - 0
        simp only [gcStep]
        simp at h8
        omega
      · have : k = k' := eq_of_beq w2
        subst this
        have := ((h.rep.perm E w3).tail E).2
        rw [this]
        simp only [w1, Option.isSome_some] at h8
        simp only [Option.any, decide_true, if_true, gcStep]
        simp at h8
        omega

theorem gc_R (E : EqLaws c eq) {b d n : Nat} (hb : b ≤ 2 ^ 32) (g : List (Gc K)) :
    ∀ {s : St K V} {S : Spec K V}, R c eq b d n s S →
    R c eq b d n (gc c s g) (S.gc c.weak g) ∧ ((gc c s g).map.array = none ↔ s.map.array = none) := by
  induction g with
  | nil => intro s S h; exact ⟨h, Iff.rfl⟩
  | cons x t ih =>
    intro s S h
    obtain ⟨h1, h2⟩ := gcStep_R E hb h x
    obtain ⟨h3, h4⟩ := ih h1
    exact ⟨h3, h4.trans h2⟩

private theorem gcStep_dead {s : St K V} (g : Gc K) (k : K) (hk : s.dead k = false)
    (h : ∀ k', g = .die k' → k' ≠ k) : (gcStep c s g).dead k = false := by
  cases g with
  | die k' =>
    have := h k' rfl
    simp [gcStep, hk, Ne.symm this]
  | drop k' =>
    simp only [gcStep, removeNoResize]
    split <;> exact hk

private theorem gc_dead (g : List (Gc K)) : ∀ {s : St K V} (k : K), s.dead k = false →
    k ∉ killed g → (gc c s g).dead k = false := by
  induction g with
  | nil => intro s k h _; exact h
  | cons x t ih =>
    intro s k h hk
    cases x with
    | die k' =>
      simp only [killed, List.mem_cons, not_or] at hk
      exact ih k (gcStep_dead _ k h (by rintro k'' h'; cases h'; exact Ne.symm hk.1)) hk.2
    | drop k' =>
      exact ih k (gcStep_dead _ k h (by rintro k'' h'; cases h')) hk

private theorem gc_dead_back (g : List (Gc K)) : ∀ {s : St K V} (k : K),
    (gc c s g).dead k = true → s.dead k = true ∨ k ∈ killed g := by
  intro s k h
  cases hs : s.dead k with
  | true => exact Or.inl rfl
  | false =>
    by_cases hk : k ∈ killed g
    · exact Or.inr hk
    · rw [gc_dead g k hs hk] at h; cases h

private theorem isNextPow2_pow {k r : Nat} (h : IsNextPow2 (2 ^ k) r) : r = 2 ^ k :=
  Nat.le_antisymm (h.2.2 k (Nat.le_refl _)) h.2.1

/-- A resize keeps the visible entries, whatever happens during its allocation. -/
theorem resize_R (E : EqLaws c eq) {b b' d n : Nat} {s : St K V} {S : Spec K V}
    (hb : b ≤ b') (hb' : b' ≤ 2 ^ 31)
    (h : R c eq b d n s S) (g : List (Gc K)) (sz : Nat)
    (hz : sz = 0 → contents s = []) (hp : sz = 0 ∨ ∃ k, sz = 2 ^ k) (hszb : sz ≤ b') :
    ∃ s' g', resize c g s (BitVec.ofNat 32 sz) = some s' ∧ (g' = g ∨ g' = []) ∧
      R c eq b' d n s' (S.gc c.weak g') ∧ (sz ≠ 0 → s'.map.array ≠ none) ∧
      s'.dead = (gc c s g').dead := by
  have hszn : (BitVec.ofNat 32 sz).toNat = sz := by
    rw [BitVec.toNat_ofNat]; omega
  have hmono : ∀ {s0 : St K V} {S0 : Spec K V}, R c eq b d n s0 S0 → R c eq b' d n s0 S0 :=
    fun r => ⟨fun a ha => by
      obtain ⟨x, y, z⟩ := r.wf a ha; exact ⟨x, by omega, z⟩, r.pow, r.rep, r.cnt, r.cntS, r.specS, r.size⟩
  by_cases h0 : sz = 0
  · have hc := hz h0
    refine ⟨{ s with map := { s.map with array := none } }, [], ?_, Or.inr rfl, ?_, by simp [h0], rfl⟩
    · simp [resize, h0]
    · have hls : live c s = [] := by simp [live, hc]
      have hcn : contents ({ s with map := { s.map with array := none } } : St K V) = [] := by
        simp [contents]
      refine ⟨by intro a ha; simp at ha, by intro a ha; simp at ha, ?_, ?_, ?_, ?_, h.size⟩
      · have := h.rep
        rw [hls] at this
        simpa [Spec.gc, live, hcn] using this
      · have := h.cnt; rw [hc] at this; rw [hcn]; exact this
      · intro hw; have := h.cntS hw; rw [hc] at this; rw [hcn]; exact this
      · intro hw; have := h.specS hw; rw [hc] at this; rw [hcn]; exact this
  · have hne : BitVec.ofNat 32 sz ≠ 0#32 := by
      intro he; apply h0; rw [← hszn, he]; rfl
    obtain ⟨k, hk⟩ : ∃ k, sz = 2 ^ k := hp.resolve_left h0
    obtain ⟨r, hr, hnp⟩ := nextPowerOfTwo_correct (BitVec.ofNat 32 sz) (by omega)
    rw [hszn, hk] at hnp
    have hrn : r.toNat = sz := by rw [isNextPow2_pow hnp, hk]
    have hlen : (List.replicate sz ([] : List (K × V))).length = sz := by simp
    cases ha : s.map.array with
    | none =>
      obtain ⟨hg, hgn⟩ := gc_R E (by omega) g h
      refine ⟨{ gc c s g with map := { (gc c s g).map with array := some (List.replicate sz []) } },
        g, ?_, Or.inl rfl, ?_, by simp, rfl⟩
      · simp [resize, hne, hr, ha, hrn]
      · have hn := hgn.mpr ha
        have hc1 : contents (gc c s g) = [] := by simp [contents, hn]
        have hc2 : contents ({ gc c s g with map := { (gc c s g).map with
            array := some (List.replicate sz []) } } : St K V) = [] := by
          simp [contents]
        refine ⟨?_, ?_, ?_, ?_, ?_, ?_, hg.size⟩
        · intro a' ha'
          simp only [Option.some.injEq] at ha'
          subst ha'
          exact ⟨by rw [hlen]; omega, by rw [hlen]; omega, placed_replicate c sz⟩
        · intro a' ha'
          simp only [Option.some.injEq] at ha'
          subst ha'
          exact ⟨k, by rw [hlen, hk]⟩
        · have := hg.rep
          rw [live, hc1] at this
          rw [live, hc2]
          exact this
        · have := hg.cnt; rw [hc1] at this; rw [hc2]; exact this
        · intro hw; have := hg.cntS hw; rw [hc1] at this; rw [hc2]; exact this
        · intro hw; have := hg.specS hw; rw [hc1] at this; rw [hc2]; exact this
    | some a =>
      by_cases hl : a.length = sz
      · refine ⟨s, [], ?_, Or.inr rfl, hmono h, by simp [ha], rfl⟩
        simp [resize, hne, hr, ha, hrn, hl]
      · obtain ⟨hg, hgn⟩ := gc_R E (by omega) g h
        have hgs : (gc c s g).map.array ≠ none := by rw [ne_eq, hgn, ha]; simp
        obtain ⟨a1, ha1⟩ := Option.ne_none_iff_exists'.mp hgs
        obtain ⟨l1, l2, l3⟩ := relink_spec c (gc c s g).dead a1 (List.replicate sz [])
          (by rw [hlen]; omega) (by rw [hlen]; omega) (placed_replicate c sz)
        rw [flatten_replicate_nil, List.append_nil] at l3
        rw [hlen] at l1
        have hc1 : contents (gc c s g) = a1.flatten := by simp [contents, ha1]
        refine ⟨{ gc c s g with map := { (gc c s g).map with
            array := some (relink c (gc c s g).dead a1 (List.replicate sz [])) } },
          g, ?_, Or.inl rfl, ?_, by simp, rfl⟩
        · simp [resize, hne, hr, ha, hrn, hl, ha1]
        · have hlv : live c (gc c s g) = a1.flatten.filter (alive c (gc c s g).dead) := by
            rw [live, hc1]
          have hle := List.length_filter_le (alive c (gc c s g).dead) a1.flatten
          have hpl := l3.length_eq
          have hstrong : c.weak = false → a1.flatten.filter (alive c (gc c s g).dead) = a1.flatten := by
            intro hw; rw [List.filter_eq_self]; intro e _; simp [alive, hw]
          refine ⟨?_, ?_, ?_, ?_, ?_, ?_, hg.size⟩
          · intro a' ha'
            simp only [Option.some.injEq] at ha'
            subst ha'
            exact ⟨by omega, by omega, l2⟩
          · intro a' ha'
            simp only [Option.some.injEq] at ha'
            subst ha'
            exact ⟨k, by omega⟩
          · refine hg.rep.perm E ?_
            rw [hlv]
            simp only [live, contents, Option.getD_some]
            have := (l3.filter (alive c (gc c s g).dead))
            rw [filter_filter_alive] at this
            exact this.symm
          · have := hg.cnt
            rw [hc1] at this
            simp only [contents, Option.getD_some]
            omega
          · intro hw
            have := hg.cntS hw
            rw [hc1] at this
            simp only [contents, Option.getD_some]
            rw [hstrong hw] at hpl
            omega
          · intro hw
            have := hg.specS hw
            rw [hc1] at this
            simp only [contents, Option.getD_some]
            rw [hstrong hw] at hpl
            omega

private theorem gcStep_entry_none (weak : Bool) (S : Spec K V) (g : Gc K) (k : K)
    (h : S.entry k = none) : (S.gcStep weak g).entry k = none := by
  cases g with
  | die k' =>
    simp only [Spec.gcStep]
    split <;> simp [h, forget]
  | drop k' => simp [Spec.gcStep, h, forget]

private theorem gc_entry_none (weak : Bool) (g : List (Gc K)) : ∀ (S : Spec K V) (k : K),
    S.entry k = none → (S.gc weak g).entry k = none := by
  induction g with
  | nil => intro S k h; exact h
  | cons x t ih => intro S k h; exact ih _ k (gcStep_entry_none weak S x k h)

private theorem R.mono {b b' d n n' : Nat} {s : St K V} {S : Spec K V} (h : R c eq b d n s S)
    (hb : b ≤ b') (hn : n ≤ n') : R c eq b' d n' s S :=
  ⟨fun a ha => by obtain ⟨x, y, z⟩ := h.wf a ha; exact ⟨x, by omega, z⟩,
   h.pow, h.rep, h.cnt, h.cntS, h.specS, Nat.le_trans h.size hn⟩

private theorem shrink_R (E : EqLaws c eq) {b n : Nat} {s : St K V} {S : Spec K V}
    (hb : b ≤ 2 ^ 31) (h : R c eq b 0 n s S) (hn : s.map.array ≠ none) (g : List (Gc K)) :
    ∃ s' g', shrink c g s = some s' ∧ (g' = g ∨ g' = []) ∧
      R c eq b 0 n s' (S.gc c.weak g') ∧ s'.dead = (gc c s g').dead := by
  obtain ⟨a, ha⟩ := Option.ne_none_iff_exists'.mp hn
  obtain ⟨h0, hab, _⟩ := h.wf a ha
  obtain ⟨k, hk⟩ := h.pow a ha
  by_cases hsz : s.map.size.toNat ≤ a.length / 3
  · have hp : a.length / 2 = 0 ∨ ∃ k, a.length / 2 = 2 ^ k := by
      cases k with
      | zero => left; omega
      | succ k => right; exact ⟨k, by rw [hk, Nat.pow_succ]; omega⟩
    obtain ⟨s', g', r1, r2, r3, _, r5⟩ := resize_R E (Nat.le_refl b) hb h g (a.length / 2)
      (by
        intro hz
        have h1 := h.cnt
        have : (contents s).length = 0 := by omega
        exact List.length_eq_zero_iff.mp this) hp (by omega)
    exact ⟨s', g', by simp [shrink, ha, hsz, r1], r2, r3, r5⟩
  · exact ⟨s, [], by simp [shrink, ha, hsz], Or.inr rfl, h, rfl⟩

private theorem insertGrow_R (E : EqLaws c eq) {n : Nat} {s : St K V} {S : Spec K V}
    (hn : n + 1 ≤ 2 ^ 31) (h : R c eq (Max.max 16 n) 0 n s S) (g : List (Gc K)) :
    ∃ s' g', insertGrow c g s = some s' ∧ (g' = g ∨ g' = []) ∧
      R c eq (Max.max 16 (n + 1)) 1 (n + 1) s' (S.gc c.weak g') ∧ s'.map.array ≠ none ∧
      s'.dead = (gc c s g').dead := by
  have hs := h.size
  have hsz : (s.map.size + 1#32).toNat = s.map.size.toNat + 1 := by
    rw [BitVec.toNat_add]; simp; omega
  -- the state after `++map->size()`
  have h1 : R c eq (Max.max 16 n) 1 (n + 1)
      { s with map := { s.map with size := s.map.size + 1#32 } } S := by
    refine ⟨h.wf, h.pow, h.rep, ?_, ?_, h.specS, ?_⟩
    · show (contents s).length + 1 ≤ (s.map.size + 1#32).toNat
      have := h.cnt; omega
    · intro hw
      show (contents s).length + 1 = (s.map.size + 1#32).toNat
      have := h.cntS hw; omega
    · show (s.map.size + 1#32).toNat ≤ n + 1
      omega
  have hdead : ∀ g' : List (Gc K), (gc c { s with map := { s.map with size := s.map.size + 1#32 } } g').dead
      = (gc c s g').dead := by
    intro g'
    have : ∀ (g : List (Gc K)) (s1 s2 : St K V), s1.dead = s2.dead →
        (gc c s1 g).dead = (gc c s2 g).dead := by
      intro g
      induction g with
      | nil => intro s1 s2 h; exact h
      | cons x t ih =>
        intro s1 s2 h
        refine ih _ _ ?_
        cases x with
        | die k => simp [gcStep, h]
        | drop k =>
          simp only [gcStep, removeNoResize]
          split <;> split <;> exact h
    exact this g' _ _ rfl
  cases ha : s.map.array with
  | none =>
    obtain ⟨s', g', r1, r2, r3, r4, r5⟩ := resize_R E (b' := Max.max 16 (n + 1)) (by omega) (by omega) h1 g 16
      (by omega) (Or.inr ⟨4, rfl⟩) (by omega)
    exact ⟨s', g', by simp [insertGrow, ha]; simpa [ha] using r1, r2, r3, r4 (by omega),
      by rw [r5, hdead]⟩
  | some a =>
    obtain ⟨h0, hab, _⟩ := h.wf a ha
    obtain ⟨k, hk⟩ := h.pow a ha
    by_cases hgr : a.length * 2 ≤ (s.map.size + 1#32).toNat
    · obtain ⟨s', g', r1, r2, r3, r4, r5⟩ := resize_R E (b' := Max.max 16 (n + 1)) (by omega) (by omega) h1 g
        (a.length * 2) (by omega) (Or.inr ⟨k + 1, by rw [hk, Nat.pow_succ]⟩) (by omega)
      refine ⟨s', g', ?_, r2, r3, r4 (by omega), by rw [r5, hdead]⟩
      simp only [insertGrow, ha, hgr, if_true]
      simpa [ha] using r1
    · refine ⟨{ s with map := { s.map with size := s.map.size + 1#32 } }, [], ?_, Or.inr rfl,
        h1.mono (by omega) (Nat.le_refl _), by simp [ha], rfl⟩
      simp only [insertGrow, ha, hgr, if_false]

private theorem insertLink_R (E : EqLaws c eq) {b n : Nat} {s : St K V} {S : Spec K V}
    (hb : b ≤ 2 ^ 32) (h : R c eq b 1 n s S) (hn : s.map.array ≠ none) (k : K) (v : V)
    (hk : s.dead k = false) (hS : S.entry k = none) :
    ∃ s', insertLink c s k v = some s' ∧ R c eq b 0 n s' (S.add eq k v) ∧ s'.map.array ≠ none ∧
      s'.dead = s.dead := by
  obtain ⟨a, ha⟩ := Option.ne_none_iff_exists'.mp hn
  obtain ⟨h0, hab, hp⟩ := h.wf a ha
  have hpp := push_perm c a (k, v) h0 (by omega)
  have hcs : contents s = a.flatten := by simp [contents, ha]
  have hlen := hpp.length_eq
  simp only [List.length_cons] at hlen
  refine ⟨{ s with map := { s.map with array := some (push c a (k, v)) } },
    by simp [insertLink, ha], ⟨?_, ?_, ?_, ?_, ?_, ?_, h.size⟩, by simp, rfl⟩
  · intro a' ha'
    simp only [Option.some.injEq] at ha'
    subst ha'
    exact ⟨by rw [push_length]; exact h0, by rw [push_length]; exact hab, push_placed c a _ hp⟩
  · intro a' ha'
    simp only [Option.some.injEq] at ha'
    subst ha'
    rw [push_length]; exact h.pow a ha
  · refine (h.rep.add E k v hS).perm E ?_
    have hal : alive c s.dead (k, v) = true := by simp [alive, hk]
    have := hpp.filter (alive c s.dead)
    rw [List.filter_cons, if_pos hal] at this
    simp only [live, hcs]
    simp only [contents, Option.getD_some]
    exact this.symm
  · have := h.cnt; rw [hcs] at this
    simp only [contents, Option.getD_some]; omega
  · intro hw; have := h.cntS hw; rw [hcs] at this
    simp only [contents, Option.getD_some]; omega
  · intro hw; have := h.specS hw; rw [hcs] at this
    simp only [contents, Option.getD_some, Spec.add]; omega

private theorem sub_killed {g g' : List (Gc K)} (h : g' = g ∨ g' = []) {x : K}
    (hx : x ∈ killed g') : x ∈ killed g := by
  rcases h with rfl | rfl
  · exact hx
  · simp [killed] at hx

/-- Inserting a key that is not present. -/
theorem insert_R (E : EqLaws c eq) {n : Nat} {s : St K V} {S : Spec K V} (hn : n + 1 ≤ 2 ^ 31)
    (h : R c eq (Max.max 16 n) 0 n s S) (g1 g2 g3 : List (Gc K)) (k : K) (v : V)
    (hk : s.dead k = false) (hk1 : k ∉ killed g1) (hk2 : k ∉ killed g2)
    (hS : S.entry k = none) :
    ∃ s' g1' g3', insert c g1 g2 g3 s k v = some s' ∧ (g1' = g1 ∨ g1' = []) ∧
      (g3' = g3 ∨ g3' = []) ∧
      R c eq (Max.max 16 (n + 1)) 0 (n + 1) s'
        ((((S.gc c.weak g1').gc c.weak g2).add eq k v).gc c.weak g3') ∧
      ∀ x, s'.dead x = true → s.dead x = true ∨ x ∈ killed g1 ++ killed g2 ++ killed g3 := by
  obtain ⟨s1, g1', a1, a2, a3, a4, a5⟩ := insertGrow_R E hn h g1
  obtain ⟨b1, b2⟩ := gc_R E (by omega) g2 a3
  have hd1 : s1.dead k = false := by
    rw [a5]; exact gc_dead g1' k hk (fun hx => hk1 (sub_killed a2 hx))
  obtain ⟨s2, c1, c2, c3, c4⟩ := insertLink_R E (by omega) b1 (by rw [ne_eq, b2]; exact a4) k v
    (gc_dead g2 k hd1 hk2) (gc_entry_none _ _ _ _ (gc_entry_none _ _ _ _ hS))
  obtain ⟨s3, g3', d1, d2, d3, d4⟩ := shrink_R E (by omega) c2 c3 g3
  refine ⟨s3, g1', g3', ?_, a2, d2, d3, ?_⟩
  · simp [insert, a1, c1, d1]
  · intro x hx
    rw [d4] at hx
    rcases gc_dead_back g3' x hx with hx | hx
    · rw [c4] at hx
      rcases gc_dead_back g2 x hx with hx | hx
      · rw [a5] at hx
        rcases gc_dead_back g1' x hx with hx | hx
        · exact Or.inl hx
        · exact Or.inr (by simp [sub_killed a2 hx])
      · exact Or.inr (by simp [hx])
    · exact Or.inr (by simp [sub_killed d2 hx])

private theorem remove_R (E : EqLaws c eq) {b n : Nat} {s : St K V} {S : Spec K V}
    (hb : b ≤ 2 ^ 31) (h : R c eq b 0 n s S) (g : List (Gc K)) (k : K) :
    ∃ s' g', remove c eq g s k = some (s', (S.entry k).map (·.2)) ∧ (g' = g ∨ g' = []) ∧
      R c eq b 0 n s' ((S.erase eq k).gc c.weak g') ∧
      ∀ x, s'.dead x = true → s.dead x = true ∨ x ∈ killed g := by
  cases ha : s.map.array with
  | none =>
    have hnone : ∀ q, S.entry q = none := fun q => (h.rep.absent q).mpr (by simp [live_none ha])
    have hS : S.erase eq k = S := by
      cases S with
      | mk en sz =>
        simp only [Spec.erase, Spec.mk.injEq]
        have hen : ∀ q, en q = none := hnone
        refine ⟨?_, by simp [hen k]⟩
        funext q
        simp [hen q]
    refine ⟨s, [], by simp [remove, ha, hnone k], Or.inr rfl, by rw [hS]; exact h, fun x hx => Or.inl hx⟩
  | some a =>
    obtain ⟨q1, q2, q3, q4, q5, q6, q7, q8, q9⟩ :=
      removeNoResize_spec E.hash (by omega) h.wf h.cnt h.cntS k
    have hne : (removeNoResize c eq s k).1.map.array ≠ none := by rw [ne_eq, q4, ha]; simp
    have hpow : ∀ a, (removeNoResize c eq s k).1.map.array = some a → ∃ k, a.length = 2 ^ k := by
      intro a1 ha1
      obtain ⟨k, hk⟩ := h.pow a ha
      simp only [len, ha1, ha] at q3
      exact ⟨k, by omega⟩
    have hR : (removeNoResize c eq s k).2 = (S.entry k).map (·.2) ∧
        R c eq b 0 n (removeNoResize c eq s k).1 (S.erase eq k) := by
      rcases q9 with ⟨w1, w2, w3⟩ | ⟨k', v, w1, w2, w3⟩
      · have hn : S.entry k = none := (h.rep.absent k).mpr w3
        have hS : (S.erase eq k).entry = S.entry := by
          funext q
          simp only [Spec.erase]
          split
          · next hq => rw [h.rep.key E hq, hn]
          · rfl
        refine ⟨by rw [w1, hn]; rfl, q1, hpow, ?_, q5, q6, ?_, Nat.le_trans q7 h.size⟩
        · rw [hS]; exact h.rep.perm E w2
        · intro hw
          have h1 := q8 hw
          have h2 := h.specS hw
          rw [w1] at h1
          simp only [Spec.erase, hn]
          simp at h1
          simp; omega
      · have ht := (h.rep.perm E w3).tail E
        have hk' : S.entry k = some (k', v) := by rw [h.rep.key E w2, ht.2]
        have hS : (S.erase eq k).entry = fun q => if eq q k' then none else S.entry q := by
          funext q
          simp only [Spec.erase]
          have : eq q k = eq q k' := by
            cases hq : eq q k with
            | true => exact (E.trans _ _ _ hq w2).symm
            | false =>
              cases hq' : eq q k' with
              | false => rfl
              | true => rw [E.trans _ _ _ hq' (E.symm _ _ w2)] at hq; cases hq
          rw [this]
        refine ⟨by rw [w1, hk']; rfl, q1, hpow, by rw [hS]; exact ht.1, q5, q6, ?_,
          Nat.le_trans q7 h.size⟩
        intro hw
        have h1 := q8 hw
        have h2 := h.specS hw
        rw [w1] at h1
        simp only [Spec.erase, hk']
        simp at h1
        simp; omega
    obtain ⟨s', g', r1, r2, r3, r4⟩ := shrink_R E hb hR.2 hne g
    refine ⟨s', g', ?_, r2, r3, ?_⟩
    · simp only [remove, ha, r1, hR.1]
    · intro x hx
      rw [r4] at hx
      rcases gc_dead_back g' x hx with hx | hx
      · rw [q2] at hx; exact Or.inl hx
      · exact Or.inr (sub_killed r2 hx)

private theorem setNode_R (E : EqLaws c eq) {b n : Nat} {s : St K V} {S : Spec K V}
    (hb : b ≤ 2 ^ 32) (h : R c eq b 0 n s S) (k : K) (v : V) (hS : S.entry k ≠ none) :
    R c eq b 0 n (setNode c eq s k v) (S.replace eq k v) ∧
    (setNode c eq s k v).dead = s.dead := by
  cases ha : s.map.array with
  | none => exact absurd ((h.rep.absent k).mpr (by simp [live_none ha])) hS
  | some a =>
    obtain ⟨e, he⟩ := Option.ne_none_iff_exists'.mp hS
    have hfind := findNode_spec E hb h.wf h.rep k
    rw [he] at hfind
    simp only [findNode, ha] at hfind
    obtain ⟨h0, hab, hp⟩ := h.wf a ha
    have hi : index (c.hash k) a.length < a.length := index_lt _ h0 (by omega)
    obtain ⟨t1, t2, t3⟩ := setChain_spec c s.dead eq k v (a.getD (index (c.hash k) a.length) [])
    obtain ⟨rest', t4, t5⟩ := t3 e hfind
    obtain ⟨rest, p1, p2, _⟩ := set_split a _ hi (setChain c s.dead eq k v
      (a.getD (index (c.hash k) a.length) []))
    have hcs : contents s = a.flatten := by simp [contents, ha]
    have hct : contents (setNode c eq s k v) = (a.set (index (c.hash k) a.length)
        (setChain c s.dead eq k v (a.getD (index (c.hash k) a.length) []))).flatten := by
      simp [setNode, ha, contents]
    have hdt : (setNode c eq s k v).dead = s.dead := by simp [setNode, ha]
    have hst : (setNode c eq s k v).map.size = s.map.size := by simp [setNode, ha]
    have l1 := p1.length_eq
    have l2 := p2.length_eq
    simp only [List.length_append, t1] at l1 l2
    have hls : (live c s).Perm (e :: (rest' ++ rest.filter (alive c s.dead))) := by
      rw [live, hcs]
      refine (p1.filter _).trans ?_
      rw [List.filter_append]
      exact (List.perm_append_right_iff _).mpr t4
    have hlt : (live c (setNode c eq s k v)).Perm
        ((e.1, v) :: (rest' ++ rest.filter (alive c s.dead))) := by
      rw [live, hct, hdt]
      refine (p2.filter _).trans ?_
      rw [List.filter_append]
      exact (List.perm_append_right_iff _).mpr t5
    have hke : eq k e.1 = true := ((h.rep.2 k e).mp he).2
    refine ⟨⟨?_, ?_, ?_, ?_, ?_, ?_, ?_⟩, hdt⟩
    · intro a' ha'
      simp only [setNode, ha, Option.some.injEq] at ha'
      subst ha'
      exact ⟨by simpa using h0, by simpa using hab, set_placed c a _ _ hp hi t2⟩
    · intro a' ha'
      simp only [setNode, ha, Option.some.injEq] at ha'
      subst ha'
      rw [List.length_set]; exact h.pow a ha
    · have hr := h.rep.perm E hls
      have ht := hr.tail E
      have hna : (fun q => if eq q e.1 then none else S.entry q) e.1 = none := by
        simp [E.refl]
      have := (ht.1.add E e.1 v hna).perm E hlt.symm
      have hf : (S.replace eq k v).entry = fun q => if eq q e.1 then some (e.1, v)
          else (fun q => if eq q e.1 then none else S.entry q) q := by
        funext q
        simp only [Spec.replace]
        have hqq : eq q k = eq q e.1 := by
          cases hq : eq q k with
          | true => exact (E.trans _ _ _ hq hke).symm
          | false =>
            cases hq' : eq q e.1 with
            | false => rfl
            | true => rw [E.trans _ _ _ hq' (E.symm _ _ hke)] at hq; cases hq
        rw [hqq]
        split
        · next hq => rw [h.rep.key E hq, ht.2]; rfl
        · rfl
      rw [hf]; exact this
    · have := h.cnt; rw [hcs] at this; rw [hct, hst]; omega
    · intro hw; have := h.cntS hw; rw [hcs] at this; rw [hct, hst]; omega
    · intro hw
      have := h.specS hw
      rw [hcs] at this
      rw [hct]
      show _ = S.size
      omega
    · rw [hst]; exact h.size

/-- The number of insertions in one operation. -/
private def ins1 : Op K V → Nat
  | .insertMaybe .. => 1
  | .insertOrReplace .. => 1
  | _ => 0

omit [DecidableEq K] in
private theorem inserts_cons (o : Op K V) (os : List (Op K V)) :
    inserts (o :: os) = inserts os + ins1 o := by
  cases o <;> simp [inserts, ins1]

/-- One operation refines one operation of the specification. -/
theorem step_R (E : EqLaws c eq) {n : Nat} {s : St K V} {S : Spec K V} (o : Op K V)
    (hn : n + ins1 o ≤ 2 ^ 31) (h : R c eq (Max.max 16 n) 0 n s S)
    (hv : match o with
     | .insertMaybe k _ g1 g2 _ => s.dead k = false ∧ k ∉ killed g1 ∧ k ∉ killed g2
     | .insertOrReplace k _ g1 g2 _ => s.dead k = false ∧ k ∉ killed g1 ∧ k ∉ killed g2
     | _ => True) :
    ∃ s' out S', step c eq s o = some (s', out) ∧ SpecStep c.weak eq S o out S' ∧
      R c eq (Max.max 16 (n + ins1 o)) 0 (n + ins1 o) s' S' ∧
      ∀ x, s'.dead x = true → s.dead x = true ∨ x ∈ opKilled o := by
  have hb : Max.max 16 n ≤ 2 ^ 31 := by omega
  have hfind := findNode_spec E (by omega) h.wf h.rep
  cases o with
  | find q =>
    exact ⟨s, .found (S.entry q), S, by simp [step, hfind], .find S q, h, fun x hx => Or.inl hx⟩
  | insertMaybe k v g1 g2 g3 =>
    obtain ⟨v1, v2, v3⟩ := hv
    cases he : S.entry k with
    | none =>
      obtain ⟨s', g1', g3', r1, r2, r3, r4, r5⟩ := insert_R E hn h g1 g2 g3 k v v1 v2 v3 he
      exact ⟨s', .flag true, _, by simp [step, insertMaybe, hfind, he, r1],
        .insertMaybeNew S k v g1 g2 g3 g1' g3' he r2 r3, r4, r5⟩
    | some e =>
      exact ⟨s, .flag false, S, by simp [step, insertMaybe, hfind, he],
        .insertMaybeOld S k v g1 g2 g3 (by simp [he]), h.mono (by simp only [ins1]; omega) (by simp [ins1]),
        fun x hx => Or.inl hx⟩
  | insertOrReplace k v g1 g2 g3 =>
    obtain ⟨v1, v2, v3⟩ := hv
    cases he : S.entry k with
    | none =>
      obtain ⟨s', g1', g3', r1, r2, r3, r4, r5⟩ := insert_R E hn h g1 g2 g3 k v v1 v2 v3 he
      exact ⟨s', .flag true, _, by simp [step, insertOrReplace, hfind, he, r1],
        .insertNew S k v g1 g2 g3 g1' g3' he r2 r3, r4, r5⟩
    | some e =>
      obtain ⟨r1, r2⟩ := setNode_R E (by omega) h k v (by simp [he])
      exact ⟨setNode c eq s k v, .flag false, S.replace eq k v,
        by simp [step, insertOrReplace, hfind, he],
        .replace S k v g1 g2 g3 (by simp [he]), r1.mono (by simp only [ins1]; omega) (by simp [ins1]),
        fun x hx => Or.inl (by rw [← r2]; exact hx)⟩
  | remove k g =>
    obtain ⟨s', g', r1, r2, r3, r4⟩ := remove_R E hb h g k
    exact ⟨s', _, _, by simp [step, r1], .remove S k g g' r2, r3, r4⟩
  | collect g =>
    exact ⟨gc c s g, .done, _, rfl, .collect S g, (gc_R E (by omega) g h).1,
      fun x hx => gc_dead_back g x hx⟩

theorem run_R (E : EqLaws c eq) (ops : List (Op K V)) : ∀ {n : Nat} {s : St K V} {S : Spec K V}
    (d : List K), n + inserts ops ≤ 2 ^ 31 → R c eq (Max.max 16 n) 0 n s S →
    (∀ x, s.dead x = true → x ∈ d) → Valid d ops →
    ∃ s' outs S', run c eq s ops = some (s', outs) ∧ SpecRun c.weak eq S ops outs S' ∧
      R c eq (Max.max 16 (n + inserts ops)) 0 (n + inserts ops) s' S' := by
  induction ops with
  | nil =>
    intro n s S d hn h hd hv
    exact ⟨s, [], S, rfl, .nil S, h⟩
  | cons o os ih =>
    intro n s S d hn h hd hv
    rw [inserts_cons] at hn ⊢
    have hal : ∀ k, k ∉ d → s.dead k = false := by
      intro k hk
      cases hx : s.dead k with
      | false => rfl
      | true => exact absurd (hd k hx) hk
    obtain ⟨s1, out, S1, a1, a2, a3, a4⟩ := step_R E o (by omega) h (by
      have := hv.1
      cases o with
      | insertMaybe k v g1 g2 g3 =>
        simp only [List.mem_append, not_or] at this
        exact ⟨hal k this.1.1, this.1.2, this.2⟩
      | insertOrReplace k v g1 g2 g3 =>
        simp only [List.mem_append, not_or] at this
        exact ⟨hal k this.1.1, this.1.2, this.2⟩
      | _ => trivial)
    obtain ⟨s2, outs, S2, b1, b2, b3⟩ := ih (d ++ opKilled o) (by omega) a3
      (by
        intro x hx
        rcases a4 x hx with hx | hx
        · exact List.mem_append_left _ (hd x hx)
        · exact List.mem_append_right _ hx) hv.2
    refine ⟨s2, out :: outs, S2, ?_, .cons S S1 S2 o out os outs a2 b2, ?_⟩
    · simp [run, a1, b1]
    · have : n + (inserts os + ins1 o) = n + ins1 o + inserts os := by omega
      rw [this]; exact b3

theorem R_empty : R c eq (Max.max 16 0) 0 0 (⟨empty, fun _ => false⟩ : St K V) Spec.empty := by
  refine ⟨by intro a ha; simp [empty] at ha, by intro a ha; simp [empty] at ha, ?_, ?_, ?_, ?_, ?_⟩
  · refine ⟨by simp [live, contents, empty], ?_⟩
    intro q e; simp [Spec.empty, live, contents, empty]
  · simp [contents, empty]
  · intro _; simp [contents, empty]
  · intro _; simp [contents, empty, Spec.empty]
  · simp [empty]

/-- C07 and C08: for every table (strong or weak), every hash function, every equality compatible
with it and every history of lookups, insertions, removals and collections, with up to `2^31`
insertions, all operations succeed and return exactly what the abstract table returns.  In a strong
table the recorded size is the number of abstract entries. -/
theorem table_refines (E : EqLaws c eq) (ops : List (Op K V)) (hn : inserts ops ≤ 2 ^ 31)
    (hv : Valid [] ops) :
    ∃ s' outs S', run c eq ⟨empty, fun _ => false⟩ ops = some (s', outs) ∧
      SpecRun c.weak eq Spec.empty ops outs S' ∧
      (∀ q, findNode c eq s' q = S'.entry q) ∧
      (c.weak = false → s'.map.size.toNat = S'.size) := by
  obtain ⟨s', outs, S', h1, h2, h3⟩ := run_R (c := c) E ops (n := 0) [] (by omega) R_empty
    (by simp) hv
  have hb : Max.max 16 (0 + inserts ops) ≤ 2 ^ 32 := by omega
  exact ⟨s', outs, S', h1, h2, findNode_spec E hb h3.wf h3.rep,
    fun hw => by have a := h3.cntS hw; have b := h3.specS hw; omega⟩

/-- A table with keys in `Nat`, compared modulo 100, all hashed to one of three values. -/
private def exCfg (weak : Bool) : Cfg Nat := ⟨weak, fun k => BitVec.ofNat 32 (k % 100 % 3)⟩
private def exEq (a b : Nat) : Bool := a % 100 == b % 100
private theorem exLaws (weak : Bool) : EqLaws (exCfg weak) exEq :=
  ⟨by simp [exEq], by simp [exEq]; intro a b h; exact h.symm,
   by simp [exEq]; intro a b d h1 h2; exact h1.trans h2,
   by intro a b h; simp [exEq] at h; simp [exCfg, h]⟩

/-- A history with collisions, growth, a replaced value, a removal and a dead key. -/
private def exOps : List (Op Nat Nat) :=
  [.insertMaybe 1 10 [] [] [], .insertMaybe 4 40 [] [] [], .insertOrReplace 101 11 [] [] [],
   .insertMaybe 7 70 [] [.die 4] [], .find 1, .remove 107 [.drop 4], .find 4]

example : ∃ s' outs S', run (exCfg true) exEq ⟨empty, fun _ => false⟩ exOps = some (s', outs) ∧
    SpecRun true exEq Spec.empty exOps outs S' ∧
    (∀ q, findNode (exCfg true) exEq s' q = S'.entry q) ∧
    ((exCfg true).weak = false → s'.map.size.toNat = S'.size) :=
  table_refines (exLaws true) exOps (by decide) (by simp [exOps, Valid, killed, opKilled])

/-! ### Consequences for one entry -/

/-- The keys that a collection clears or removes. -/
def touched : List (Gc K) → List K
  | [] => []
  | .die k :: g => k :: touched g
  | .drop k :: g => k :: touched g

/-- The operation does not collect the key object of `e`, does not remove an equal key and does
not overwrite the value. -/
def Leaves (eq : K → K → Bool) (e : K × V) : Op K V → Prop
  | .find _ => True
  | .insertMaybe _ _ g1 g2 g3 => e.1 ∉ touched g1 ++ touched g2 ++ touched g3
  | .insertOrReplace k _ g1 g2 g3 => eq k e.1 = false ∧ e.1 ∉ touched g1 ++ touched g2 ++ touched g3
  | .remove k g => eq k e.1 = false ∧ e.1 ∉ touched g
  | .collect g => e.1 ∉ touched g

private theorem gc_keeps (weak : Bool) (g : List (Gc K)) : ∀ (S : Spec K V) (q : K) (e : K × V),
    S.entry q = some e → e.1 ∉ touched g → (S.gc weak g).entry q = some e := by
  induction g with
  | nil => intro S q e h _; exact h
  | cons x t ih =>
    intro S q e h ht
    have hx : (S.gcStep weak x).entry q = some e := by
      cases x with
      | die k =>
        simp only [touched, List.mem_cons, not_or] at ht
        simp only [Spec.gcStep]
        split
        · simp [forget, h, Option.filter, ht.1]
        · exact h
      | drop k =>
        simp only [touched, List.mem_cons, not_or] at ht
        simp [Spec.gcStep, forget, h, Option.filter, ht.1]
    have ht' : e.1 ∉ touched t := by
      cases x <;> (simp only [touched, List.mem_cons, not_or] at ht; exact ht.2)
    exact ih _ q e hx ht'

private theorem sub_touched {g g' : List (Gc K)} (h : g' = g ∨ g' = []) {x : K}
    (hx : x ∉ touched g) : x ∉ touched g' := by
  rcases h with rfl | rfl
  · exact hx
  · simp [touched]

private theorem specStep_keeps (E : EqLaws c eq) {weak : Bool} {S S' : Spec K V} {o : Op K V}
    {out : Out K V} (h : SpecStep weak eq S o out S') {q : K} {e : K × V}
    (hq : S.entry q = some e) (hqe : eq q e.1 = true) (hex : ∀ k, eq k e.1 = true → S.entry k = some e)
    (hl : Leaves eq e o) : S'.entry q = some e := by
  cases h with
  | find => exact hq
  | insertMaybeNew k v g1 g2 g3 g1' g3' h h1 h3 =>
    simp only [Leaves, List.mem_append, not_or] at hl
    refine gc_keeps _ _ _ _ _ ?_ (sub_touched h3 hl.2)
    have hne : eq q k = false := by
      cases hx : eq q k with
      | false => rfl
      | true => rw [hex k (E.trans _ _ _ (E.symm _ _ hx) hqe)] at h; cases h
    simp only [Spec.add, hne]
    exact gc_keeps _ _ _ _ _ (gc_keeps _ _ _ _ _ hq (sub_touched h1 hl.1.1)) hl.1.2
  | insertMaybeOld => exact hq
  | insertNew k v g1 g2 g3 g1' g3' h h1 h3 =>
    simp only [Leaves, List.mem_append, not_or] at hl
    refine gc_keeps _ _ _ _ _ ?_ (sub_touched h3 hl.2.2)
    have hne : eq q k = false := by
      cases hx : eq q k with
      | false => rfl
      | true => rw [hex k (E.trans _ _ _ (E.symm _ _ hx) hqe)] at h; cases h
    simp only [Spec.add, hne]
    exact gc_keeps _ _ _ _ _ (gc_keeps _ _ _ _ _ hq (sub_touched h1 hl.2.1.1)) hl.2.1.2
  | replace k v g1 g2 g3 h =>
    have hne : eq q k = false := by
      cases hx : eq q k with
      | false => rfl
      | true =>
        have := E.trans _ _ _ (E.symm _ _ hx) hqe
        rw [hl.1] at this; cases this
    simp [Spec.replace, hne, hq]
  | remove k g g' h =>
    refine gc_keeps _ _ _ _ _ ?_ (sub_touched h hl.2)
    have hne : eq q k = false := by
      cases hx : eq q k with
      | false => rfl
      | true =>
        have := E.trans _ _ _ (E.symm _ _ hx) hqe
        rw [hl.1] at this; cases this
    simp [Spec.erase, hne, hq]
  | collect g => exact gc_keeps _ _ _ _ _ hq hl

/-- The state reached by any valid history. -/
def Reach (c : Cfg K) (eq : K → K → Bool) (ops : List (Op K V)) (s : St K V) : Prop :=
  ∃ outs, run c eq ⟨empty, fun _ => false⟩ ops = some (s, outs)

private theorem run_append (ops1 ops2 : List (Op K V)) : ∀ (s s2 : St K V) outs,
    run c eq s (ops1 ++ ops2) = some (s2, outs) → ∃ s1 outs1 outs2,
      run c eq s ops1 = some (s1, outs1) ∧ run c eq s1 ops2 = some (s2, outs2) := by
  induction ops1 with
  | nil => intro s s2 outs h; exact ⟨s, [], outs, rfl, h⟩
  | cons o os ih =>
    intro s s2 outs h
    simp only [List.cons_append, run] at h
    split at h
    · cases h
    · next s' out hs =>
      split at h
      · cases h
      · next s'' outs' hr =>
        simp only [Option.some.injEq, Prod.mk.injEq] at h
        obtain ⟨rfl, _⟩ := h
        obtain ⟨s1, o1, o2, h1, h2⟩ := ih s' s'' outs' hr
        exact ⟨s1, out :: o1, o2, by simp [run, hs, h1], h2⟩

/-- Later states keep every entry that is left alone. -/
private theorem run_keeps (E : EqLaws c eq) (ops : List (Op K V)) : ∀ {n : Nat} {s : St K V}
    {S : Spec K V} (d : List K), n + inserts ops ≤ 2 ^ 31 → R c eq (Max.max 16 n) 0 n s S →
    (∀ x, s.dead x = true → x ∈ d) → Valid d ops → ∀ (q : K) (e : K × V),
    S.entry q = some e → (∀ o ∈ ops, Leaves eq e o) →
    ∃ s' outs S', run c eq s ops = some (s', outs) ∧
      R c eq (Max.max 16 (n + inserts ops)) 0 (n + inserts ops) s' S' ∧ S'.entry q = some e := by
  induction ops with
  | nil => intro n s S d hn h hd hv q e hq _; exact ⟨s, [], S, rfl, h, hq⟩
  | cons o os ih =>
    intro n s S d hn h hd hv q e hq hl
    rw [inserts_cons] at hn ⊢
    have hal : ∀ k, k ∉ d → s.dead k = false := by
      intro k hk
      cases hx : s.dead k with
      | false => rfl
      | true => exact absurd (hd k hx) hk
    obtain ⟨s1, out, S1, a1, a2, a3, a4⟩ := step_R E o (by omega) h (by
      have := hv.1
      cases o with
      | insertMaybe k v g1 g2 g3 =>
        simp only [List.mem_append, not_or] at this
        exact ⟨hal k this.1.1, this.1.2, this.2⟩
      | insertOrReplace k v g1 g2 g3 =>
        simp only [List.mem_append, not_or] at this
        exact ⟨hal k this.1.1, this.1.2, this.2⟩
      | _ => trivial)
    have hm := (h.rep.2 q e).mp hq
    have hq1 : S1.entry q = some e :=
      specStep_keeps E a2 hq hm.2 (fun k hk => (h.rep.2 k e).mpr ⟨hm.1, hk⟩) (hl o (by simp))
    obtain ⟨s2, outs, S2, b1, b2, b3⟩ := ih (d ++ opKilled o) (by omega) a3
      (by
        intro x hx
        rcases a4 x hx with hx | hx
        · exact List.mem_append_left _ (hd x hx)
        · exact List.mem_append_right _ hx) hv.2 q e hq1 (fun o' ho' => hl o' (by simp [ho']))
    refine ⟨s2, out :: outs, S2, by simp [run, a1, b1], ?_, b3⟩
    have : n + (inserts os + ins1 o) = n + ins1 o + inserts os := by omega
    rw [this]; exact b2

omit [DecidableEq K] in
private theorem valid_append (ops1 ops2 : List (Op K V)) : ∀ d, Valid d (ops1 ++ ops2) →
    Valid d ops1 ∧ ∃ d', Valid d' ops2 ∧ ∀ x, (x ∈ d ∨ ∃ o ∈ ops1, x ∈ opKilled o) → x ∈ d' := by
  induction ops1 with
  | nil => intro d h; exact ⟨trivial, d, h, by simp⟩
  | cons o os ih =>
    intro d h
    obtain ⟨h1, d', h2, h3⟩ := ih _ h.2
    refine ⟨⟨h.1, h1⟩, d', h2, ?_⟩
    rintro x (hx | ⟨o', ho', hx⟩)
    · exact h3 x (Or.inl (List.mem_append_left _ hx))
    · rcases List.mem_cons.mp ho' with rfl | ho'
      · exact h3 x (Or.inl (List.mem_append_right _ hx))
      · exact h3 x (Or.inr ⟨o', ho', hx⟩)

omit [DecidableEq K] in
private theorem inserts_append (a b : List (Op K V)) : inserts (a ++ b) = inserts a + inserts b := by
  induction a with
  | nil => simp [inserts]
  | cons o os ih => rw [List.cons_append, inserts_cons, inserts_cons, ih]; omega

/-- Dead keys of the reached state come from the history. -/
private theorem run_dead (ops : List (Op K V)) (E : EqLaws c eq) : ∀ {n : Nat} {s s' : St K V}
    {S : Spec K V} {outs} (d : List K), n + inserts ops ≤ 2 ^ 31 → R c eq (Max.max 16 n) 0 n s S →
    (∀ x, s.dead x = true → x ∈ d) → Valid d ops → run c eq s ops = some (s', outs) →
    ∀ x, s'.dead x = true → x ∈ d ∨ ∃ o ∈ ops, x ∈ opKilled o := by
  induction ops with
  | nil =>
    intro n s s' S outs d hn h hd hv hr x hx
    simp only [run, Option.some.injEq, Prod.mk.injEq] at hr
    obtain ⟨rfl, _⟩ := hr
    exact Or.inl (hd x hx)
  | cons o os ih =>
    intro n s s' S outs d hn h hd hv hr x hx
    rw [inserts_cons] at hn
    have hal : ∀ k, k ∉ d → s.dead k = false := by
      intro k hk
      cases hx : s.dead k with
      | false => rfl
      | true => exact absurd (hd k hx) hk
    obtain ⟨s1, out, S1, a1, a2, a3, a4⟩ := step_R E o (by omega) h (by
      have := hv.1
      cases o with
      | insertMaybe k v g1 g2 g3 =>
        simp only [List.mem_append, not_or] at this
        exact ⟨hal k this.1.1, this.1.2, this.2⟩
      | insertOrReplace k v g1 g2 g3 =>
        simp only [List.mem_append, not_or] at this
        exact ⟨hal k this.1.1, this.1.2, this.2⟩
      | _ => trivial)
    simp only [run, a1] at hr
    split at hr
    · cases hr
    · next s2 outs2 hr2 =>
      simp only [Option.some.injEq, Prod.mk.injEq] at hr
      obtain ⟨rfl, _⟩ := hr
      rcases ih (d ++ opKilled o) (by omega) a3
        (by
          intro x hx
          rcases a4 x hx with hx | hx
          · exact List.mem_append_left _ (hd x hx)
          · exact List.mem_append_right _ hx) hv.2 hr2 x hx with hx | ⟨o', ho', hx⟩
      · rcases List.mem_append.mp hx with hx | hx
        · exact Or.inl hx
        · exact Or.inr ⟨o, by simp, hx⟩
      · exact Or.inr ⟨o', by simp [ho'], hx⟩

/-- C08: an entry that a lookup can see stays visible, with the same key object and value, through
any further lookups, insertions, removals of other keys, resizes and collections that do not take
its own key. -/
theorem visible_entry_kept (E : EqLaws c eq) (ops1 ops2 : List (Op K V))
    (hn : inserts (ops1 ++ ops2) ≤ 2 ^ 31) (hv : Valid [] (ops1 ++ ops2))
    (s1 s2 : St K V) (h1 : Reach c eq ops1 s1) (h2 : Reach c eq (ops1 ++ ops2) s2)
    (q : K) (e : K × V) (hq : findNode c eq s1 q = some e) (hl : ∀ o ∈ ops2, Leaves eq e o) :
    findNode c eq s2 q = some e := by
  obtain ⟨outs2, h2⟩ := h2
  obtain ⟨outs1, h1⟩ := h1
  obtain ⟨s1', o1, o2, r1, r2⟩ := run_append ops1 ops2 _ _ _ h2
  rw [h1] at r1
  simp only [Option.some.injEq, Prod.mk.injEq] at r1
  obtain ⟨rfl, _⟩ := r1
  obtain ⟨v1, d', v2, v3⟩ := valid_append ops1 ops2 [] hv
  rw [inserts_append] at hn
  obtain ⟨sa, oa, Sa, w1, w2, w3⟩ := run_R (c := c) E ops1 (n := 0) [] (by omega) R_empty
    (by simp) v1
  rw [h1] at w1
  simp only [Option.some.injEq, Prod.mk.injEq] at w1
  obtain ⟨rfl, _⟩ := w1
  rw [findNode_spec E (by omega) w3.wf w3.rep] at hq
  have hd := run_dead ops1 E [] (by omega) R_empty (by simp) v1 h1
  obtain ⟨sb, ob, Sb, x1, x2, x3⟩ := run_keeps E ops2 d' (by omega) w3
    (fun x hx => v3 x (hd x hx)) v2 q e hq hl
  rw [r2] at x1
  simp only [Option.some.injEq, Prod.mk.injEq] at x1
  obtain ⟨rfl, _⟩ := x1
  rw [findNode_spec E (by omega) x2.wf x2.rep]
  exact x3

omit [DecidableEq K] in
/-- C08: a weak table never returns an entry whose key was collected. -/
theorem dead_never_returned (s : St K V) (q : K) (e : K × V) (hw : c.weak = true)
    (h : findNode c eq s q = some e) : s.dead e.1 = false := by
  simp only [findNode] at h
  split at h
  · cases h
  · next a ha =>
    rcases findChain_spec c s.dead eq q (a.getD (index (c.hash q) a.length) []) with
      ⟨h1, _⟩ | ⟨e', h1, h2, _⟩
    · rw [h] at h1; cases h1
    · rw [h] at h2; cases h2
      have := (List.mem_filter.mp h1).2
      simpa [alive, hw] using this

/-- The entries `1` and `107` of the example history: `1` survives, the dead key `4` does not. -/
example : ((run (exCfg true) exEq ⟨empty, fun _ => false⟩ exOps).map (fun r =>
    (findNode (exCfg true) exEq r.1 1, findNode (exCfg true) exEq r.1 4)))
    = some (some (1, 11), none) := by decide +kernel

/-- The hypotheses of `visible_entry_kept` on the example: entry `(1, 11)` after three steps. -/
example : ∀ o ∈ exOps.drop 3, Leaves exEq (1, 11) o := by
  simp [exOps, Leaves, touched, exEq]

/-! ### Interning (C14) -/

/-- machine.cpp:5490-5506 `intern` and 859-874 `internByteArray` on the weak string table (values
are null).  The allocation in `addFinalizer` is covered by `g3`. -/
def intern (c : Cfg K) (eq : K → K → Bool) (g1 g2 g3 : List (Gc K)) (s : St K Unit) (x : K) :
    Option (St K Unit × K) :=
  match findNode c eq s x with
  | some e => some (s, e.1)
  | none => (insert c g1 g2 g3 s x ()).map (·, x)

private theorem intern_step (s s' : St K Unit) (g1 g2 g3 : List (Gc K)) (x r : K)
    (h : intern c eq g1 g2 g3 s x = some (s', r)) :
    ∃ out, step c eq s (.insertMaybe x () g1 g2 g3) = some (s', out) := by
  simp only [intern] at h
  simp only [step, insertMaybe]
  cases he : findNode c eq s x with
  | some e =>
    rw [he] at h
    simp only [Option.some.injEq, Prod.mk.injEq] at h
    rw [← h.1]
    exact ⟨_, rfl⟩
  | none =>
    rw [he] at h
    cases hi : insert c g1 g2 g3 s x () with
    | none => simp [hi] at h
    | some s2 =>
      simp only [hi, Option.map_some, Option.some.injEq, Prod.mk.injEq] at h
      rw [← h.1]
      exact ⟨_, rfl⟩

/-- C14: after any history, interning returns an object equal to its argument (an argument equal to
the canonical object is not changed), and as long as that object is neither collected nor removed,
interning any equal string later returns that very object. -/
theorem intern_canonical (E : EqLaws c eq) (ops1 ops2 : List (Op K Unit)) (a b : K)
    (g1 g2 g3 g1' g2' g3' : List (Gc K))
    (hn : inserts (ops1 ++ .insertMaybe a () g1 g2 g3 :: ops2) < 2 ^ 31)
    (hv : Valid [] (ops1 ++ .insertMaybe a () g1 g2 g3 :: ops2))
    (s1 s2 s3 s4 : St K Unit) (r1 r2 : K) (h1 : Reach c eq ops1 s1)
    (hi1 : intern c eq g1 g2 g3 s1 a = some (s2, r1))
    (h2 : ∃ outs, run c eq s2 ops2 = some (s3, outs))
    (hi2 : intern c eq g1' g2' g3' s3 b = some (s4, r2))
    (hl3 : r1 ∉ touched g3) (hl : ∀ o ∈ ops2, Leaves eq (r1, ()) o) :
    eq a r1 = true ∧ (eq a b = true → r2 = r1) := by
  obtain ⟨outs1, h1⟩ := h1
  obtain ⟨outs2, h2⟩ := h2
  rw [inserts_append, inserts_cons] at hn
  simp only [ins1] at hn
  obtain ⟨v1, d', v2, v3⟩ := valid_append ops1 _ [] hv
  obtain ⟨sa, oa, Sa, w1, w2, w3⟩ := run_R (c := c) E ops1 (n := 0) [] (by omega) R_empty
    (by simp) v1
  rw [h1] at w1
  simp only [Option.some.injEq, Prod.mk.injEq] at w1
  obtain ⟨rfl, _⟩ := w1
  have hd := run_dead ops1 E [] (by omega) R_empty (by simp) v1 h1
  have hd' : ∀ x, s1.dead x = true → x ∈ d' := fun x hx => v3 x (hd x hx)
  have hva := v2.1
  simp only [List.mem_append, not_or] at hva
  have hda : s1.dead a = false := by
    cases hx : s1.dead a with
    | false => rfl
    | true => exact absurd (hd' a hx) hva.1.1
  obtain ⟨out, hs⟩ := intern_step s1 s2 g1 g2 g3 a r1 hi1
  have hfind := findNode_spec E (by omega) w3.wf w3.rep
  -- after the first intern, `r1` answers every probe equal to `a`
  have key : ∃ S2, R c eq (Max.max 16 (0 + inserts ops1 + 1)) 0 (0 + inserts ops1 + 1) s2 S2 ∧
      S2.entry a = some (r1, ()) ∧ (∀ x, s2.dead x = true → s1.dead x = true ∨
        x ∈ opKilled (V := Unit) (.insertMaybe a () g1 g2 g3)) ∧ eq a r1 = true := by
    simp only [intern, hfind] at hi1
    cases he : Sa.entry a with
    | some e =>
      rw [he] at hi1
      simp only [Option.some.injEq, Prod.mk.injEq] at hi1
      obtain ⟨rfl, rfl⟩ := hi1
      refine ⟨Sa, w3.mono (by omega) (by omega), he, fun x hx => Or.inl hx, ?_⟩
      exact ((w3.rep.2 a e).mp he).2
    | none =>
      rw [he] at hi1
      obtain ⟨s', q1, q3, y1, y2, y3, y4, y5⟩ :=
        insert_R E (by omega) w3 g1 g2 g3 a () hda hva.1.2 hva.2 he
      rw [y1] at hi1
      simp only [Option.map_some, Option.some.injEq, Prod.mk.injEq] at hi1
      obtain ⟨rfl, rfl⟩ := hi1
      refine ⟨_, y4, ?_, y5, E.refl _⟩
      exact gc_keeps _ _ _ _ _ (by simp [Spec.add, E.refl]) (sub_touched y3 hl3)
  obtain ⟨S2, k1, k2, k3, k4⟩ := key
  refine ⟨k4, ?_⟩
  intro hab
  obtain ⟨sb, ob, Sb, x1, x2, x3⟩ := run_keeps E ops2 (d' ++ opKilled (V := Unit) (.insertMaybe a () g1 g2 g3))
    (by omega) k1
    (by
      intro x hx
      rcases k3 x hx with hx | hx
      · exact List.mem_append_left _ (hd' x hx)
      · exact List.mem_append_right _ hx) v2.2 a (r1, ()) k2 hl
  rw [h2] at x1
  simp only [Option.some.injEq, Prod.mk.injEq] at x1
  obtain ⟨rfl, _⟩ := x1
  have hf := findNode_spec E (by omega) x2.wf x2.rep b
  rw [← x2.rep.key E hab, x3] at hf
  simp only [intern, hf, Option.some.injEq, Prod.mk.injEq] at hi2
  exact hi2.2.symm

/-- Interning `5` and later `105` (an equal string) gives `5`, with other strings interned and
collected in between. -/
example :
    let ops2 : List (Op Nat Unit) := [.insertMaybe 6 () [] [] [], .collect [.die 6, .drop 6],
      .insertMaybe 8 () [] [] []]
    ((intern (exCfg true) exEq [] [] [] ⟨empty, fun _ => false⟩ 5).bind fun r1 =>
      (run (exCfg true) exEq r1.1 ops2).bind fun r2 =>
      (intern (exCfg true) exEq [] [] [] r2.1 105).map (fun r3 => (r1.2, r3.2))) = some (5, 5) := by
  decide +kernel

/-! ### Iteration -/

omit [DecidableEq K] in
private theorem iterFind_spec (a : List (List (K × V))) : ∀ fuel i, a.length < fuel + i →
    (a.drop i).flatten = (iterFind a fuel i).node ++ (a.drop (iterFind a fuel i).index).flatten ∧
    ((iterFind a fuel i).node = [] → (a.drop i).flatten = []) := by
  intro fuel
  induction fuel with
  | zero =>
    intro i h
    have : a.drop i = [] := List.drop_eq_nil_of_le (by omega)
    simp [iterFind, this]
  | succ fuel ih =>
    intro i h
    unfold iterFind
    split
    · next hi =>
      have hd : a.drop i = a[i] :: a.drop (i + 1) := List.drop_eq_getElem_cons hi
      have hg : a.getD i [] = a[i] := by simp [List.getD_eq_getElem?_getD, hi]
      split
      · next hc =>
        rw [hg] at hc
        rw [hd, hc]
        simpa using ih (i + 1) (by omega)
      · next e rest hc =>
        rw [hg] at hc
        rw [hd, hc]
        simp
    · next hi =>
      have : a.drop i = [] := List.drop_eq_nil_of_le (by omega)
      simp [this]

omit [DecidableEq K] in
private theorem iterAll_spec (m : HMap K V) (a : List (List (K × V))) (ha : m.array = some a) :
    ∀ fuel (it : Iter K V), (it.node = [] → (a.drop it.index).flatten = []) →
    (it.node ++ (a.drop it.index).flatten).length < fuel →
    iterAll m fuel it = it.node ++ (a.drop it.index).flatten := by
  intro fuel
  induction fuel with
  | zero => intro it _ h; omega
  | succ fuel ih =>
    intro it h0 hf
    obtain ⟨node, idx⟩ := it
    match node, h0, hf with
    | [], h0, hf => simp [iterAll, iterNext, h0]
    | [e], h0, hf =>
      have hs := iterFind_spec a (a.length + 1) idx (by omega)
      have := ih (iterFind a (a.length + 1) idx) (by
        intro hn
        have h2 := hs.2 hn
        rw [h2, hn] at hs
        simpa using hs.1.symm) (by rw [← hs.1]; simp at hf ⊢; omega)
      simp only [iterAll, iterNext, ha]
      rw [this, ← hs.1]
      rfl
    | e :: e' :: rest, h0, hf =>
      have := ih ⟨e' :: rest, idx⟩ (by simp) (by simp at hf ⊢; omega)
      simp only [iterAll, iterNext]
      rw [this]
      rfl

omit [DecidableEq K] in
/-- C07: iterating over a table that is not modified visits every entry exactly once (the list of
visited entries is the list of stored entries), and then stops. -/
theorem iterator_visits_each_once (s : St K V) (fuel : Nat) (hf : (contents s).length < fuel) :
    iterAll s.map fuel (iterStart s.map) = contents s := by
  cases ha : s.map.array with
  | none =>
    cases fuel with
    | zero => omega
    | succ f => simp [iterStart, ha, iterAll, iterNext, contents]
  | some a =>
    have hs := iterFind_spec a (a.length + 1) 0 (by omega)
    have hc : contents s = (a.drop 0).flatten := by simp [contents, ha]
    rw [hc] at hf ⊢
    have := iterAll_spec s.map a ha fuel (iterFind a (a.length + 1) 0)
      (by
        intro hn
        have h2 := hs.2 hn
        rw [h2, hn] at hs
        simpa using hs.1.symm) (by rw [← hs.1]; exact hf)
    simp only [iterStart, ha]
    rw [this, ← hs.1]

example : ((run (exCfg false) exEq ⟨empty, fun _ => false⟩ exOps).map (fun r =>
    iterAll r.1.map 9 (iterStart r.1.map))) = some [(1, 11), (4, 40)] := by decide +kernel

/-! ### Raw insertion -/

/-- C07 (limit): `hashMapInsert` does not look for an equal key, and the resizes reverse the order
of a chain.  Two plain insertions under the same key leave the FIRST value visible, so the table
is a map only for callers that look up first. -/
theorem raw_insert_twice_shows_first :
    ((insert (exCfg false) [] [] [] ⟨empty, fun _ => false⟩ 1 10).bind fun s =>
      (insert (exCfg false) [] [] [] s 1 20).map fun s' => findNode (exCfg false) exEq s' 1)
    = some (some (1, 10)) := by decide +kernel

end Avian.HashMap
