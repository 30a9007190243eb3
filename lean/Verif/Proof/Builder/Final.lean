import Verif.Proof.Builder.History
import Verif.Client
/-! # Finished Dawgs -/
namespace Dawg.Abs
attribute [-simp] List.length_flatten
open Dawg.Spec Dawg.Client

/-- The finished core `c` with root child `r` represents `acc`. -/
structure FinalCore (c : Core) (r : Nat) (acc : Lang) : Prop where
  cinv : CInv c
  den : (acc = [] ∧ r = 0 ∧ c.groups = []) ∨ (∃ g, IsStart c.groups r g ∧ DenG c.groups g acc)
  nodes : ∃ N, NInv c [] (if r = 0 then none else some r) N
  small : poolLen c.groups ≤ 1073741824

/-- The finished Dawg `d` represents `acc`. -/
def Final (d : Dawg) (acc : Lang) : Prop := ∃ c r, DawgIs d c r ∧ FinalCore c r acc

theorem finish_sem {s : St} {acc : Lang} (h : SInv s acc) (hsz : s.size ≤ 1073741824) : FinalCore s.finish.1 s.finish.2 acc := by
  have hsmall : poolLen s.finish.1.groups ≤ 1073741824 := by
    have := closeFrames_poolLen s.frames s.val s.core
    simp only [St.size, St.finish] at *; omega
  obtain ⟨N, hN⟩ := h.nodes
  rcases h.acc with ⟨hf, hv, hg, rfl⟩ | ⟨fs, P, hf, hnz, hctx, rfl⟩
  · have he : s.finish = (s.core, 0) := by simp [St.finish, hf, closeFrames, hv]
    rw [he] at hsmall ⊢
    exact ⟨h.core, .inl ⟨rfl, rfl, hg⟩, ⟨N, by rw [hf] at hN; simpa using hN⟩, hsmall⟩
  · have hcl := closeFrames_spec fs s.core s.val [] P [([], s.val % 2147483648)] none N ⟨[], 0⟩ h.core
      (by rw [← hf]; exact h.desc) (by rw [← hf]; exact hsz) (by simp [DenC]) hnz
      (by simpa using ⟨P, [], hctx, rfl, by simp⟩) (by rw [List.append_nil, ← hf]; exact hN) (fun h => absurd rfl h) (fun _ => rfl)
    simp only at hcl
    rw [← hf] at hcl
    obtain ⟨h1, _, ⟨g, Y, P0, h2, h3, h4, h5⟩, N', h6⟩ := hcl
    have hp0 : P0 = [] := h4
    subst hp0
    simp only [up, if_true, List.map_cons, List.map_nil, pre, List.append_nil, List.nil_append, path_nil] at h5
    have h5' : Y = P ++ [(path fs, s.val % 2147483648)] := by
      rw [h5, map_pre_nil]
    refine ⟨h1, .inr ⟨g, h2, by rw [← h5']; exact h3⟩, ⟨N', ?_⟩, hsmall⟩
    have : s.finish.2 ≠ 0 := Nat.pos_iff_ne_zero.1 h2.pos
    rw [if_neg this]; exact h6

/-! ## Histories -/

theorem word_eq (v : Int) : baseOfValue v % 2147483648 = stored v := by
  unfold baseOfValue stored; omega

def wordE (e : Key × Int) : Entry := (e.1, stored e.2)

theorem addW_map (acc : List (Key × Int)) (k : Key) (v : Int) : addW (acc.map wordE) k (stored v) = (add acc k v).map wordE := by
  unfold addW add
  rw [List.getLast?_map]
  cases acc.getLast? with
  | none => simp [wordE]
  | some e =>
    simp only [Option.map_some, wordE]
    split
    · rfl
    · split <;> simp [wordE]

theorem acceptsW_map (acc : List (Key × Int)) (k : Key) : acceptsW (acc.map wordE) k = accepts acc k := by
  unfold acceptsW accepts
  rw [List.getLast?_map]
  cases acc.getLast? <;> rfl

def acceptedFrom (acc : List (Key × Int)) (hist : List (Key × Int)) : List (Key × Int) :=
  hist.foldl (fun acc e => add acc e.1 e.2) acc

/-- Abstract insertions. -/
def runAbs (s : St) (hist : List (Key × Int)) : St := hist.foldl (fun s e => (s.insert (e.1 ++ [0]) (baseOfValue e.2)).1) s

def total (hist : List (Key × Int)) : Nat := (hist.map (fun e => e.1.length + 1)).sum

theorem insertAll_spec : ∀ (hist : List (Key × Int)) (b : Builder) (s : St) (acc : List (Key × Int)) (t : Nat),
    Rel b s → SInv s (acc.map wordE) → b.hashTable.length ≠ 0 → s.size ≤ 1 + t → b.unitPool.length ≤ 1 + t →
    (∀ e ∈ hist, (0 : UInt8) ∉ e.1) → t + total hist < 1073741824 →
    ∃ b', insertAll b hist = .ok (b', verdicts acc hist) ∧ Rel b' (runAbs s hist) ∧
      SInv (runAbs s hist) ((acceptedFrom acc hist).map wordE) ∧ b'.hashTable.length ≠ 0 ∧
      (runAbs s hist).size ≤ 1 + t + total hist ∧ b'.unitPool.length ≤ 1 + t + total hist ∧
      b'.initialHashTableSize = b.initialHashTableSize := by
  intro hist
  induction hist with
  | nil =>
    intro b s acc t h1 h2 h3 h4 h5 _ _
    exact ⟨b, rfl, h1, h2, h3, by simpa [total, runAbs] using h4, by simpa [total] using h5, rfl⟩
  | cons e hist ih =>
    intro b s acc t h1 h2 h3 h4 h5 hnul htot
    obtain ⟨k, v⟩ := e
    have hk : (0 : UInt8) ∉ k := hnul (k, v) (by simp)
    have htot' : total ((k, v) :: hist) = k.length + 1 + total hist := by simp [total]
    rw [htot'] at htot
    have hsz : s.size ≤ 1073741824 := by omega
    obtain ⟨b1, r1, r2, r3, r4, r5⟩ := insert_spec h1 k k.length (Nat.le_refl _) (by simpa using hk) v h3 hsz (by omega)
    rw [List.take_length] at r1 r2 r5
    obtain ⟨q1, q2, q3⟩ := insert_sem h2 k (baseOfValue v) hk hsz
    rw [word_eq, addW_map] at q1
    rw [acceptsW_map] at q2
    have hsize := s.insert_size (k ++ [0]) (baseOfValue v) (by simp)
    rw [List.length_append, List.length_singleton] at hsize
    have hht : b1.hashTable.length ≠ 0 := by
      have := r2.core.room; omega
    obtain ⟨b2, p1, p2, p3, p4, p5, p6, p7⟩ := ih b1 _ (add acc k v) (t + (k.length + 1)) r2 q1 hht (by omega) (by omega)
      (fun e he => hnul e (by simp [he])) (by omega)
    refine ⟨b2, ?_, p2, p3, p4, ?_, ?_, p7.trans r4⟩
    · simp only [insertAll, Builder.insertStringValue]
      rw [r1]
      simp only [ok_bind, p1, pure_eq_ok, verdicts, q2]
    · rw [htot']; simp only [runAbs, List.foldl_cons] at p5 ⊢; omega
    · rw [htot']; omega

theorem insertAll_init {n : Nat} {b : Builder} (hb : (Builder.newWithSize n).init = .ok b) (hne : b.hashTable.length ≠ 0)
    (e : Key × Int) (hist : List (Key × Int)) :
    insertAll (Builder.newWithSize n) (e :: hist) = insertAll b (e :: hist) := by
  obtain ⟨k, v⟩ := e
  have : (Builder.newWithSize n).insertStringValue k v = b.insertStringValue k v := by
    have h0 : (Builder.newWithSize n).hashTable.length = 0 := rfl
    unfold Builder.insertStringValue Builder.insertKeyValue
    rw [if_pos h0, if_neg hne, hb]
  simp only [insertAll, this]

theorem finish_init {n : Nat} {b : Builder} (hb : (Builder.newWithSize n).init = .ok b) (hne : b.hashTable.length ≠ 0) :
    (Builder.newWithSize n).finish = b.finish := by
  have h0 : (Builder.newWithSize n).hashTable.length = 0 := rfl
  unfold Builder.finish
  rw [if_pos h0, if_neg hne, hb]

/-- The emptied builder `Finish` leaves behind. -/
def spent (n : Nat) : Builder := { Builder.newWithSize n with hashTable := [0] }

/-- The main theorem about building. -/
theorem build_spec (n : Nat) (h1 : 1 ≤ n) (h2 : n < 4294967296) (hist : List (Key × Int)) (hadm : Admissible hist) :
    ∃ d, build n hist = .ok (verdicts [] hist, spent n, d) ∧
      DawgIs d (runAbs St.init hist).finish.1 (runAbs St.init hist).finish.2 ∧
      FinalCore (runAbs St.init hist).finish.1 (runAbs St.init hist).finish.2 ((accepted hist).map wordE) := by
  obtain ⟨b0, i1, i2, i3, i4, i5⟩ := init_spec n h1 h2
  obtain ⟨b, r1, r2, r3, r4, r5, r6, r7⟩ := insertAll_spec hist b0 St.init [] 0 i2 SInv.init i4 (by simp [St.size, St.init, poolLen, edges])
    (by omega) hadm.nulFree (by simpa [total] using hadm.small)
  have hsz : (runAbs St.init hist).size ≤ 1073741824 := by
    have := hadm.small
    simp only [total] at r5; omega
  obtain ⟨b', d, f1, f2, _, f4⟩ := finish_spec r2 r4 hsz
  refine ⟨d, ?_, f2, finish_sem r3 hsz⟩
  have hfin : b' = spent n := by rw [f4, r7, i5]; rfl
  unfold build
  cases hist with
  | nil =>
    simp only [insertAll, ok_bind, finish_init i1 i4]
    simp only [insertAll, Except.ok.injEq, Prod.mk.injEq] at r1
    rw [r1.1, f1]
    simp [hfin, verdicts]
  | cons e hist =>
    rw [insertAll_init i1 i4, r1]
    simp only [ok_bind, f1, pure_eq_ok, hfin]

/-- The state of the builder in the middle of a history. -/
theorem insertAll_new (n : Nat) (h1 : 1 ≤ n) (h2 : n < 4294967296) (hist : List (Key × Int)) (hadm : Admissible hist) (hne : hist ≠ []) :
    ∃ b, insertAll (Builder.newWithSize n) hist = .ok (b, verdicts [] hist) ∧ Rel b (runAbs St.init hist) ∧
      SInv (runAbs St.init hist) ((accepted hist).map wordE) ∧ b.hashTable.length ≠ 0 ∧
      (runAbs St.init hist).size ≤ 1 + total hist ∧ b.unitPool.length ≤ 1 + total hist := by
  obtain ⟨b0, i1, i2, i3, i4, i5⟩ := init_spec n h1 h2
  obtain ⟨b, r1, r2, r3, r4, r5, r6, r7⟩ := insertAll_spec hist b0 St.init [] 0 i2 SInv.init i4 (by simp [St.size, St.init, poolLen, edges])
    (by omega) hadm.nulFree (by simpa [total] using hadm.small)
  cases hist with
  | nil => exact absurd rfl hne
  | cons e hist =>
    rw [← insertAll_init i1 i4] at r1
    exact ⟨b, r1, r2, r3, r4, by omega, by omega⟩

end Dawg.Abs
