import Verif.Class.Dispatch

/-! Lemmas about `Verif.Class.Dispatch`. -/

namespace Avian.Dispatch

/-! ### the map of virtual methods -/

structure VOK (m : VMap) (n : Nat) : Prop where
  len : m.length = n
  off : ∀ i e, m[i]? = some e → e.1.offset = i % 65536
  nodup : (m.map (·.1.key)).Nodup
  sec : ∀ e ∈ m, e.2.key = e.1.key ∧ e.2.offset = e.1.offset

theorem find_congr {α} {p q : α → Bool} : ∀ {l : List α}, (∀ a ∈ l, p a = q a) → l.find? p = l.find? q := by
  intro l
  induction l with
  | nil => intro _; rfl
  | cons a l ih =>
    intro h
    simp only [List.find?_cons, h a List.mem_cons_self, ih (fun b hb => h b (List.mem_cons_of_mem _ hb))]

def entry (m : VMap) (k : Nat) : Option Method := (vfind m k).map (·.2)

theorem vfind_key {m k e} (h : vfind m k = some e) : e ∈ m ∧ e.1.key = k := by
  refine ⟨List.mem_of_find?_eq_some h, ?_⟩
  have := List.find?_some h
  simpa using this

theorem vfind_mem {m : VMap} (hn : (m.map (·.1.key)).Nodup) {e} (he : e ∈ m) : vfind m e.1.key = some e := by
  induction m with
  | nil => cases he
  | cons a m ih =>
    simp only [List.map_cons, List.nodup_cons] at hn
    simp only [vfind, List.find?_cons]
    rcases List.mem_cons.1 he with rfl | h
    · simp
    · have : a.1.key ≠ e.1.key := by
        intro eq
        exact hn.1 (List.mem_map.2 ⟨e, h, eq.symm⟩)
      simp only [beq_eq_false_iff_ne.2 this]
      exact ih hn.2 h

theorem vfind_none {m : VMap} {k} (h : vfind m k = none) : k ∉ m.map (·.1.key) := by
  intro hm
  obtain ⟨e, he, hk⟩ := List.mem_map.1 hm
  have := List.find?_eq_none.1 h e he
  simp [hk] at this

theorem vfind_append {m n : VMap} {k} : vfind (m ++ n) k = (vfind m k).or (vfind n k) := by
  simp [vfind, List.find?_append]

theorem entry_append {m n : VMap} {k} : entry (m ++ n) k = (entry m k).or (entry n k) := by
  simp only [entry, vfind_append]
  cases vfind m k <;> rfl

theorem vok_append {m n} (h : VOK m n) {x : Method} (hx : vfind m x.key = none) (ho : x.offset = n % 65536) :
    VOK (m ++ [(x, x)]) (n + 1) := by
  refine ⟨by simp [h.len], ?_, ?_, ?_⟩
  · intro i e he
    rcases Nat.lt_or_ge i m.length with hi | hi
    · rw [List.getElem?_append_left hi] at he; exact h.off i e he
    · rw [List.getElem?_append_right hi] at he
      have : i - m.length = 0 := by
        rcases Nat.eq_zero_or_pos (i - m.length) with h0 | h0
        · exact h0
        · rw [List.getElem?_eq_none (by simp; omega)] at he; cases he
      rw [this] at he; cases he
      have : i = n := by rw [← h.len]; omega
      rw [this]; exact ho
  · rw [List.map_append, List.nodup_append]
    refine ⟨h.nodup, by simp, ?_⟩
    intro a ha b hb
    simp only [List.map_cons, List.map_nil, List.mem_singleton] at hb
    subst hb
    rintro rfl
    exact vfind_none hx ha
  · intro e he
    rcases List.mem_append.1 he with he | he
    · exact h.sec e he
    · simp at he; subst he; exact ⟨rfl, rfl⟩

theorem vset_fst (m k x) : (vset m k x).map (·.1) = m.map (·.1) := by
  simp only [vset, List.map_map]
  apply List.map_congr_left
  intro e _
  by_cases h : e.1.key = k <;> simp [h]

theorem vok_set {m n} (h : VOK m n) {k p x} (hp : vfind m k = some p) (hk : x.key = k)
    (ho : x.offset = p.1.offset) : VOK (vset m k x) n := by
  have hf := vset_fst m k x
  refine ⟨by simpa [vset] using h.len, ?_, ?_, ?_⟩
  · intro i e he
    have h1 : ((vset m k x).map (·.1))[i]? = some e.1 := by simp [he]
    rw [hf, List.getElem?_map, Option.map_eq_some_iff] at h1
    obtain ⟨e', h2, h3⟩ := h1
    rw [← h3]; exact h.off i e' h2
  · have : (vset m k x).map (·.1.key) = m.map (·.1.key) := by
      have := congrArg (List.map Method.key) hf
      simp only [List.map_map] at this
      exact this
    rw [this]; exact h.nodup
  · intro e he
    simp only [vset, List.mem_map] at he
    obtain ⟨a, ha, rfl⟩ := he
    by_cases hak : a.1.key = k
    · have h1 := vfind_mem h.nodup ha
      rw [hak, hp] at h1; cases h1
      simp [hak, hk, ho]
    · simp only [beq_eq_false_iff_ne.2 hak]; exact h.sec a ha

theorem vfind_set {m k k' x} : vfind (vset m k x) k' =
    (vfind m k').map (fun e => if e.1.key == k then (e.1, x) else e) := by
  simp only [vfind, vset, List.find?_map]
  congr 1
  apply find_congr
  intro e _
  simp only [Function.comp]
  by_cases h : e.1.key = k <;> simp [h]

theorem entry_set {m k x p} (hp : vfind m k = some p) (k') :
    entry (vset m k x) k' = if k' = k then some x else entry m k' := by
  simp only [entry, vfind_set]
  by_cases hk : k' = k
  · subst hk
    rw [hp]
    have := (vfind_key hp).2
    simp [this]
  · cases hf : vfind m k' with
    | none => simp [hk]
    | some e =>
      have := (vfind_key hf).2
      have hne : e.1.key ≠ k := by rw [this]; exact hk
      simp [hk, hne]

/-! ### method tables -/

/-- all slots are filled, the offset of a method is its slot, and no two have the same key -/
def Good (vt : List (Option Method)) : Prop := ∃ ms : List Method, vt = ms.map some ∧
  (∀ j m, ms[j]? = some m → m.offset = j % 65536) ∧ (ms.map (·.key)).Nodup

/-- the method with a key -/
def lookup (vt : List (Option Method)) (k : Nat) : Option Method :=
  (vt.filterMap id).find? (fun m => m.key == k)

theorem filterMap_some {α} (ms : List α) : (ms.map some).filterMap id = ms := by
  induction ms with
  | nil => rfl
  | cons a l ih => simpa using ih

theorem good_nil : Good [] := ⟨[], rfl, by simp, by simp⟩

theorem vok_map {m n} (h : VOK m n) : Good (m.map (fun e => some e.2)) := by
  refine ⟨m.map (·.2), by simp, ?_, ?_⟩
  · intro j x hx
    rw [List.getElem?_map, Option.map_eq_some_iff] at hx
    obtain ⟨e, he, rfl⟩ := hx
    rw [(h.sec e (List.mem_of_getElem? he)).2]
    exact h.off j e he
  · have : (m.map (·.2)).map (·.key) = m.map (·.1.key) := by
      rw [List.map_map]
      apply List.map_congr_left
      intro e he; exact (h.sec e he).1
    rw [this]; exact h.nodup

theorem lookup_map {m n} (h : VOK m n) (k) : lookup (m.map (fun e => some e.2)) k = entry m k := by
  have : (m.map (fun e => some e.2)).filterMap id = m.map (·.2) := by
    rw [← filterMap_some (m.map (·.2))]; simp
  rw [lookup, this, List.find?_map]
  simp only [entry, vfind]
  congr 1
  have : ∀ l : VMap, (∀ e ∈ l, e.2.key = e.1.key) →
      l.find? ((fun m => m.key == k) ∘ fun x => x.2) = l.find? (fun e => e.1.key == k) := by
    intro l hl
    apply find_congr
    intro e he
    simp [hl e he]
  exact this m (fun e he => (h.sec e he).1)

theorem good_init {sv} (h : Good sv) :
    VOK ((sv.filterMap id).map (fun m => (m, m))) sv.length ∧
    ((sv.filterMap id).map (fun m => (m, m))).map (fun e => some e.2) = sv := by
  obtain ⟨ms, rfl, ho, hn⟩ := h
  rw [filterMap_some]
  refine ⟨⟨by simp, ?_, ?_, ?_⟩, by simp⟩
  · intro i e he
    rw [List.getElem?_map, Option.map_eq_some_iff] at he
    obtain ⟨m, hm, rfl⟩ := he
    exact ho i m hm
  · rw [List.map_map]; exact hn
  · intro e he
    obtain ⟨m, _, rfl⟩ := List.mem_map.1 he
    exact ⟨rfl, rfl⟩

/-! ### declared methods -/

def vkeys (ms : List MethodFile) : List Nat := (ms.filter (·.virt)).map (·.key)

structure DOK (c : Nat) (m0 : VMap) (done : List MethodFile) (st : St) : Prop where
  vok : VOK st.map st.count
  fst : st.map.map (·.1) = m0.map (·.1) ++ st.new
  new : st.map.drop m0.length = st.new.map (fun x => (x, x))
  newKeys : ∀ x ∈ st.new, x.key ∈ vkeys done
  declared : st.declared = (vkeys done).length
  yes : ∀ mf ∈ done, mf.virt = true → ∃ o, entry st.map mf.key = some ⟨mf.key, o, c, mf.code⟩
  no : ∀ k, k ∉ vkeys done → entry st.map k = entry m0 k
  empty : vkeys done = [] → st.map = m0 ∧ st.new = []

theorem vkeys_append (a b) : vkeys (a ++ b) = vkeys a ++ vkeys b := by simp [vkeys]

theorem declare_ok {c m0 done st mf} (h : DOK c m0 done st) (hn : (vkeys (done ++ [mf])).Nodup) :
    DOK c m0 (done ++ [mf]) (declare c st mf) := by
  unfold declare
  cases hv : mf.virt with
  | false =>
    have hk : vkeys (done ++ [mf]) = vkeys done := by simp [vkeys, hv]
    simp only [Bool.false_eq_true, if_false]
    refine ⟨h.vok, h.fst, h.new, by rw [hk]; exact h.newKeys, by rw [hk]; exact h.declared, ?_, by rw [hk]; exact h.no,
      by rw [hk]; exact h.empty⟩
    intro x hx hxv
    rcases List.mem_append.1 hx with hx | hx
    · exact h.yes x hx hxv
    · simp at hx; subst hx; rw [hv] at hxv; cases hxv
  | true =>
    have hk : vkeys (done ++ [mf]) = vkeys done ++ [mf.key] := by simp [vkeys, hv]
    rw [hk] at hn
    rw [List.nodup_append] at hn
    have hnk : mf.key ∉ vkeys done := fun hm => hn.2.2 _ hm _ (by simp) rfl
    simp only [if_true]
    cases hp : vfind st.map mf.key with
    | some p =>
      obtain ⟨hpm, hpk⟩ := vfind_key hp
      refine ⟨vok_set h.vok hp rfl rfl, ?_, ?_, ?_, ?_, ?_, ?_, ?_⟩
      · show (vset _ _ _).map (·.1) = _
        rw [vset_fst]; exact h.fst
      · show (vset _ _ _).drop _ = _
        simp only [vset, ← List.map_drop, h.new, List.map_map]
        apply List.map_congr_left
        intro x hx
        have : x.key ≠ mf.key := fun e => hnk (e ▸ h.newKeys x hx)
        simp [this]
      · intro x hx; rw [hk]; exact List.mem_append_left _ (h.newKeys x hx)
      · rw [hk]; simp [h.declared]
      · intro x hx hxv
        show ∃ o, entry (vset _ _ _) _ = _
        rw [entry_set hp]
        rcases List.mem_append.1 hx with hx | hx
        · have : x.key ≠ mf.key := by
            intro e
            exact hnk (e ▸ List.mem_map.2 ⟨x, List.mem_filter.2 ⟨hx, hxv⟩, rfl⟩)
          rw [if_neg this]; exact h.yes x hx hxv
        · simp at hx; subst hx
          rw [if_pos rfl]; exact ⟨_, rfl⟩
      · intro k hk'
        rw [hk] at hk'
        simp at hk'
        show entry (vset _ _ _) _ = _
        rw [entry_set hp, if_neg hk'.2]; exact h.no k hk'.1
      · intro he; rw [hk] at he; simp at he
    | none =>
      have hx : vfind st.map (Method.mk mf.key (st.count % 65536) c mf.code).key = none := hp
      refine ⟨vok_append h.vok hx rfl, ?_, ?_, ?_, ?_, ?_, ?_, ?_⟩
      · simp [h.fst]
      · have hle : m0.length ≤ st.map.length := by
          have := congrArg List.length h.fst
          simp at this; omega
        simp only [List.drop_append_of_le_length hle, h.new, List.map_append, List.map_cons, List.map_nil]
      · intro x hx
        rw [hk]
        rcases List.mem_append.1 hx with hx | hx
        · exact List.mem_append_left _ (h.newKeys x hx)
        · simp at hx; subst hx; simp
      · rw [hk]; simp [h.declared]
      · intro x hx hxv
        show ∃ o, entry (st.map ++ _) _ = _
        rw [entry_append]
        rcases List.mem_append.1 hx with hx | hx
        · obtain ⟨o, ho⟩ := h.yes x hx hxv
          exact ⟨o, by rw [ho]; rfl⟩
        · simp at hx; subst hx
          refine ⟨st.count % 65536, ?_⟩
          simp only [entry, hp]
          simp [vfind]
      · intro k hk'
        rw [hk] at hk'
        simp at hk'
        show entry (st.map ++ _) _ = _
        rw [entry_append, h.no k hk'.1]
        have : entry [((Method.mk mf.key (st.count % 65536) c mf.code), (Method.mk mf.key (st.count % 65536) c mf.code))] k = none := by
          have : mf.key ≠ k := fun e => hk'.2 e.symm
          simp [entry, vfind, this]
        rw [this]; cases entry m0 k <;> rfl
      · intro he; rw [hk] at he; simp at he

theorem declares_ok {c m0} : ∀ (ms : List MethodFile) {done st}, DOK c m0 done st →
    (vkeys (done ++ ms)).Nodup → DOK c m0 (done ++ ms) (ms.foldl (declare c) st) := by
  intro ms
  induction ms with
  | nil => intro done st h _; simpa using h
  | cons m ms ih =>
    intro done st h hn
    have e : done ++ m :: ms = (done ++ [m]) ++ ms := by simp
    rw [e] at hn ⊢
    refine ih (declare_ok h ?_) hn
    rw [vkeys_append] at hn
    exact (List.nodup_append.1 hn).1

/-! ### methods of interfaces -/

structure AOK (c : Nat) (m1 : VMap) (src : Method → Prop) (st : VMap × Nat × List Method) : Prop where
  vok : VOK st.1 st.2.1
  app : st.1 = m1 ++ st.2.2.map (fun x => (x, x))
  from' : ∀ x ∈ st.2.2, x.cls = c ∧ entry m1 x.key = none ∧ ∃ m, src m ∧ m.key = x.key ∧ m.code = x.code
  all : ∀ m, src m → (entry st.1 m.key).isSome = true

theorem addMethod_ok {c m1 src st m} (h : AOK c m1 src st) :
    AOK c m1 (fun x => src x ∨ m = some x) (addMethod c st m) := by
  obtain ⟨map, n, abs⟩ := st
  cases m with
  | none =>
    refine ⟨h.vok, h.app, ?_, ?_⟩
    · intro x hx
      obtain ⟨h1, h2, m, h3, h4⟩ := h.from' x hx
      exact ⟨h1, h2, m, .inl h3, h4⟩
    · rintro m (h' | h')
      · exact h.all m h'
      · cases h'
  | some m =>
    simp only [addMethod]
    cases hf : vfind map m.key with
    | some p =>
      refine ⟨h.vok, h.app, ?_, ?_⟩
      · intro x hx
        obtain ⟨h1, h2, m, h3, h4⟩ := h.from' x hx
        exact ⟨h1, h2, m, .inl h3, h4⟩
      · rintro m' (h' | h')
        · exact h.all m' h'
        · cases h'; simp [entry, hf]
    | none =>
      have happ := h.app
      simp only at happ
      have hx : vfind map (Method.mk m.key (n % 65536) c m.code).key = none := hf
      refine ⟨vok_append h.vok hx rfl, ?_, ?_, ?_⟩
      · simp [happ]
      · intro x hx
        simp only [List.mem_append, List.mem_singleton] at hx
        rcases hx with hx | hx
        · obtain ⟨h1, h2, m, h3, h4⟩ := h.from' x hx
          exact ⟨h1, h2, m, .inl h3, h4⟩
        · subst hx
          refine ⟨rfl, ?_, m, .inr rfl, rfl, rfl⟩
          rw [happ, vfind_append] at hf
          simp only [entry]
          cases hv : vfind m1 m.key with
          | none => rfl
          | some e => rw [hv] at hf; cases hf
      · rintro m' (h' | h')
        · have := h.all m' h'
          simp only [entry_append]
          cases he : entry map m'.key with
          | none => simp only [he] at this; cases this
          | some e => rfl
        · cases h'
          simp only [entry_append, entry, hf]
          simp [vfind]

theorem addMethods_ok {c m1} : ∀ (ms : List (Option Method)) {src st}, AOK c m1 src st →
    AOK c m1 (fun x => src x ∨ some x ∈ ms) (ms.foldl (addMethod c) st) := by
  intro ms
  induction ms with
  | nil => intro src st h; simpa using h
  | cons m ms ih =>
    intro src st h
    have := ih (addMethod_ok (m := m) h)
    refine cast ?_ this
    congr 1
    funext x
    apply propext
    simp only [List.mem_cons, or_assoc, eq_comm]

theorem addInterfaceMethods_ok {w c m1} : ∀ (it : List (Nat × List (Option Method))) {src st},
    AOK c m1 src st →
    AOK c m1 (fun x => src x ∨ ∃ e ∈ it, some x ∈ (at' w e.1).vtable) (addInterfaceMethods w c it st) := by
  intro it
  induction it with
  | nil => intro src st h; simpa [addInterfaceMethods] using h
  | cons e it ih =>
    intro src st h
    have := ih (addMethods_ok (at' w e.1).vtable h)
    refine cast ?_ this
    congr 1
    funext x
    apply propext
    constructor
    · rintro ((h | h) | ⟨e', h1, h2⟩)
      · exact .inl h
      · exact .inr ⟨e, List.mem_cons_self, h⟩
      · exact .inr ⟨e', List.mem_cons_of_mem _ h1, h2⟩
    · rintro (h | ⟨e', h1, h2⟩)
      · exact .inl (.inl h)
      · rcases List.mem_cons.1 h1 with rfl | h1
        · exact .inl (.inr h2)
        · exact .inr ⟨e', h1, h2⟩

/-! ### the table of an interface -/

theorem place_aux (n : Nat) : ∀ (ms pre : List Method), (∀ j (m : Method), (pre ++ ms)[j]? = some m → m.offset = j) →
    (pre ++ ms).length ≤ n →
    ms.foldl (fun l (m : Method) => l.set m.offset (some m)) (pre.map some ++ List.replicate (n - pre.length) none) =
      (pre ++ ms).map some ++ List.replicate (n - (pre ++ ms).length) none := by
  intro ms
  induction ms with
  | nil => intro pre _ _; rw [List.append_nil]; rfl
  | cons m ms ih =>
    intro pre ho hn
    simp only [List.foldl_cons]
    have h1 : m.offset = pre.length := ho pre.length m (by simp)
    have h2 : (pre.map some ++ List.replicate (n - pre.length) none).set m.offset (some m) =
        (pre ++ [m]).map some ++ List.replicate (n - (pre ++ [m]).length) none := by
      have hlt : n - pre.length = (n - (pre ++ [m]).length) + 1 := by
        simp at hn ⊢; omega
      rw [h1, hlt, List.replicate_succ, List.set_append]
      simp
    rw [h2]
    have e : pre ++ m :: ms = (pre ++ [m]) ++ ms := by simp
    rw [e] at ho hn ⊢
    exact ih (pre ++ [m]) ho hn

theorem place_eq {n : Nat} {ms : List Method} (ho : ∀ j (m : Method), ms[j]? = some m → m.offset = j)
    (hn : ms.length = n) : place n ms = ms.map some := by
  have := place_aux n ms [] (by simpa using ho) (by simp [hn])
  simp only [List.map_nil, List.length_nil, Nat.sub_zero, List.nil_append] at this
  rw [place, this]; simp [hn]

end Avian.Dispatch
