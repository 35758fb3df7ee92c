import Verif.Util.FixedAlloc
import Verif.Props.Math

/-
Property C10: the code memory allocator returns disjoint aligned blocks inside its region.
-/
namespace Avian.FixedAlloc

/-! ### Specification -/

/-- Two address ranges share no byte. -/
def Disjoint (a b : Nat × Nat) : Prop := ∀ x, ¬ (a.1 ≤ x ∧ x < a.1 + a.2 ∧ b.1 ≤ x ∧ x < b.1 + b.2)

/-- Word-aligned blocks, pairwise disjoint, all inside `[0, count)`. -/
structure Good (count : Nat) (live : List (Nat × Nat)) : Prop where
  aligned : ∀ b ∈ live, b.1 % 8 = 0
  inside : ∀ b ∈ live, b.1 + b.2 ≤ count
  disjoint : live.Pairwise Disjoint

/-- Every allocation request in the list is for fewer than `2^32 - 7` bytes. -/
def Small (rs : List Req) : Prop := ∀ r ∈ rs, match r with | .alloc n => n + 7 < 2 ^ 32 | _ => True

/-! ### Proofs -/

private theorem pad32_eq (n : Nat) (h : n + 7 < 2 ^ 32) :
    pad32 n 8#32 = (n + 7) - (n + 7) % 8 := by
  have hn : (BitVec.ofNat 32 n).toNat = n := by
    rw [BitVec.toNat_ofNat]; exact Nat.mod_eq_of_lt (by omega)
  have := Math.pad_toNat (BitVec.ofNat 32 n) 3 (by decide) (by rw [hn]; omega)
  rw [hn] at this
  exact this

/-- Internal invariant: blocks newest first, each ending at or before `top`. -/
private def Inv (s : State) (live : List (Nat × Nat)) : Prop :=
  s.offset % 8 = 0 ∧ s.offset ≤ s.count ∧
  (∀ b ∈ live, b.1 % 8 = 0 ∧ b.1 + b.2 ≤ s.offset) ∧
  live.Pairwise (fun a b => b.1 + b.2 ≤ a.1)

private theorem step_inv (s : State) (live : List (Nat × Nat)) (r : Req) (s' live')
    (hr : match r with | .alloc n => n + 7 < 2 ^ 32 | _ => True)
    (h : Inv s live) (hs : step (s, live) r = some (s', live')) :
    Inv s' live' ∧ s'.count = s.count := by
  obtain ⟨h1, h2, h3, h4⟩ := h
  cases r with
  | alloc n =>
    simp only [step, State.allocate, State.allocateAligned, pad32_eq n hr] at hs
    by_cases hlt : s.offset + (n + 7 - (n + 7) % 8) < s.count
    · simp [hlt] at hs
      obtain ⟨rfl, rfl⟩ := hs
      refine ⟨⟨?_, ?_, ?_, ?_⟩, rfl⟩
      · simp only; omega
      · simp only; omega
      · intro b hb
        rcases List.mem_cons.1 hb with rfl | hb
        · simp only; omega
        · have := h3 b hb; simp only; omega
      · refine List.pairwise_cons.2 ⟨?_, h4⟩
        intro b hb
        exact (h3 b hb).2
    · simp [hlt] at hs
  | freeLast =>
    cases live with
    | nil => simp [step] at hs
    | cons b live =>
      obtain ⟨p, size⟩ := b
      simp only [step, State.free] at hs
      by_cases he : p + size = s.offset
      · simp [he] at hs
        obtain ⟨rfl, rfl⟩ := hs
        have hp := h3 (p, size) List.mem_cons_self
        have hpw := List.pairwise_cons.1 h4
        refine ⟨⟨?_, ?_, ?_, hpw.2⟩, rfl⟩
        · simp only; simp only at hp; omega
        · simp only; omega
        · intro b hb
          have := h3 b (List.mem_cons_of_mem _ hb)
          have := hpw.1 b hb
          simp only at this ⊢; omega
      · simp [he] at hs

private theorem run_inv (rs : List Req) : ∀ (st st' : State × List (Nat × Nat)),
    Small rs → Inv st.1 st.2 → run st rs = some st' → Inv st'.1 st'.2 ∧ st'.1.count = st.1.count := by
  induction rs with
  | nil => intro st st' _ h hr; simp [run] at hr; subst hr; exact ⟨h, rfl⟩
  | cons r rs ih =>
    intro st st' hsm h hr
    simp only [run] at hr
    cases hst : step st r with
    | none => simp [hst] at hr
    | some st1 =>
      simp [hst] at hr
      have h1 := step_inv st.1 st.2 r st1.1 st1.2 (hsm r List.mem_cons_self) h hst
      have h2 := ih st1 st' (fun r hr => hsm r (List.mem_cons_of_mem _ hr)) h1.1 hr
      exact ⟨h2.1, h2.2.trans h1.2⟩

/-- C10: whatever requests were made, the live blocks are aligned, disjoint and inside the
region. -/
theorem run_good (count : Nat) (rs : List Req) (hs : Small rs) (s : State)
    (live : List (Nat × Nat)) (hr : run (State.new count, []) rs = some (s, live)) :
    Good count live := by
  have hi : Inv (State.new count) [] := by
    refine ⟨rfl, Nat.zero_le _, ?_, List.Pairwise.nil⟩
    intro b hb; cases hb
  obtain ⟨⟨_, h2, h3, h4⟩, hc⟩ := run_inv rs _ _ hs hi hr
  simp only [State.new] at h2 h3 h4 hc
  refine ⟨fun b hb => (h3 b hb).1, fun b hb => ?_, ?_⟩
  · have := (h3 b hb).2; omega
  · refine h4.imp ?_
    intro a b hab x hx
    omega

example : ∃ s live, run (State.new 64, []) [.alloc 5, .alloc 16, .freeLast, .alloc 9] =
    some (s, live) ∧ live = [(8, 9), (0, 5)] := ⟨_, _, rfl, rfl⟩

/-- C10: a request is granted exactly when the rounded block fits with at least one byte to
spare, and then it returns the first free word and moves the boundary past the block. -/
theorem allocate_iff (s : State) (n : Nat) (h : n + 7 < 2 ^ 32) (ha : s.offset % 8 = 0)
    (p : Nat) (s' : State) :
    s.allocate n = some (p, s') ↔
      ∃ m, m % 8 = 0 ∧ n ≤ m ∧ m < n + 8 ∧ s.offset + m < s.count ∧
        p = s.offset ∧ s'.count = s.count ∧ s'.offset = s.offset + m := by
  simp only [State.allocate, State.allocateAligned, pad32_eq n h]
  constructor
  · intro hs
    by_cases hlt : s.offset + (n + 7 - (n + 7) % 8) < s.count
    · simp only [hlt, if_true, Option.some.injEq, Prod.mk.injEq] at hs
      obtain ⟨rfl, rfl⟩ := hs
      exact ⟨n + 7 - (n + 7) % 8, by omega, by omega, by omega, hlt, rfl, rfl, rfl⟩
    · simp [hlt] at hs
  · rintro ⟨m, h1, h2, h3, h4, rfl, h6, h7⟩
    have hm : n + 7 - (n + 7) % 8 = m := by omega
    rw [hm, if_pos h4]
    cases s'
    simp only at h6 h7
    rw [h6, h7]

/-- C10 (only for sizes that are word multiples): freeing the block just allocated restores the
previous state.  Missing for the full property: other sizes, see `free_odd_size_aborts`. -/
theorem free_last_restores_partial (s : State) (n p : Nat) (s' : State) (h : n + 7 < 2 ^ 32)
    (hn : n % 8 = 0) (hs : s.allocate n = some (p, s')) : s'.free p n = some s := by
  simp only [State.allocate, State.allocateAligned, pad32_eq n h] at hs
  have hm : n + 7 - (n + 7) % 8 = n := by omega
  rw [hm] at hs
  by_cases hlt : s.offset + n < s.count
  · simp only [hlt, if_true, Option.some.injEq, Prod.mk.injEq] at hs
    obtain ⟨rfl, rfl⟩ := hs
    simp [State.free]
  · simp [hlt] at hs

example : (State.new 64).allocate 16 = some (0, ⟨64, 16⟩) ∧
    (⟨64, 16⟩ : State).free 0 16 = some (State.new 64) := by decide

/-- C10 (defect): freeing the block just allocated, with the size it was requested with, aborts
for every size that is not a multiple of the word size. -/
theorem free_odd_size_aborts (s : State) (n p : Nat) (s' : State) (h : n + 7 < 2 ^ 32)
    (hn : n % 8 ≠ 0) (hs : s.allocate n = some (p, s')) : s'.free p n = none := by
  simp only [State.allocate, State.allocateAligned, pad32_eq n h] at hs
  by_cases hlt : s.offset + (n + 7 - (n + 7) % 8) < s.count
  · simp only [hlt, if_true, Option.some.injEq, Prod.mk.injEq] at hs
    obtain ⟨rfl, rfl⟩ := hs
    simp only [State.free]
    rw [if_neg]
    omega
  · simp [hlt] at hs

example : (State.new 64).allocate 5 = some (0, ⟨64, 8⟩) ∧ (⟨64, 8⟩ : State).free 0 5 = none := by
  decide

/-- C10 (defect): a block that would fill the region exactly is refused (by aborting). -/
theorem exact_fit_refused (s : State) (n : Nat) (h : n + 7 < 2 ^ 32) (hn : n % 8 = 0)
    (hf : s.offset + n = s.count) : s.allocate n = none := by
  simp only [State.allocate, State.allocateAligned, pad32_eq n h]
  rw [if_neg]; omega

example : (State.new 64).allocate 64 = none := by decide

/-- C10 (defect): a request of `2^32` bytes is truncated to an empty block, so the next block
handed out overlaps it. -/
theorem huge_request_overlaps :
    run (State.new 64, []) [.alloc (2 ^ 32), .alloc 8] =
      some (⟨64, 8⟩, [(0, 8), (0, 2 ^ 32)]) := by decide

end Avian.FixedAlloc
