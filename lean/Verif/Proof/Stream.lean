import Verif.Model.Stream
import Verif.Proof.Serialize
/-! # Readers and writers that keep to their contracts -/
namespace Dawg.Stream
open Dawg

/-- The reader has ended: every further `Read` gives no bytes and the error `fin`. -/
def Ended (R : Reader) (fin : ReadErr) (s : R.State) : Prop :=
  ∃ P : R.State → Prop, P s ∧ ∀ s, P s → ∀ m, 0 < m → (R.read s m).2.1 = [] ∧ (R.read s m).2.2 = some fin ∧ P (R.read s m).1

/-- The reader keeps to the contract of `io.Reader` and delivers exactly the bytes `bs`, in pieces of any size, and ends with the error `fin`, which may come
together with the last bytes or after them.  At most `lim` successive calls of `Read` give neither bytes nor an error; `e` such calls were the last ones. -/
inductive Delivers (R : Reader) (lim : Nat) (fin : ReadErr) : Nat → R.State → List UInt8 → Prop
  | mk {e : Nat} {s : R.State} {bs : List UInt8}
      (piece : ∀ m, 0 < m → (R.read s m).2.1 <+: bs ∧ (R.read s m).2.1.length ≤ m)
      (last : ∀ m, 0 < m → ∀ x, (R.read s m).2.2 = some x → x = fin ∧ (R.read s m).2.1 = bs ∧ Ended R fin (R.read s m).1)
      (more : ∀ m, 0 < m → (R.read s m).2.2 = none → (R.read s m).2.1 ≠ [] → Delivers R lim fin 0 (R.read s m).1 (bs.drop (R.read s m).2.1.length))
      (few : ∀ m, 0 < m → (R.read s m).2.2 = none → (R.read s m).2.1 = [] → e < lim)
      (empty : ∀ m, 0 < m → (R.read s m).2.2 = none → (R.read s m).2.1 = [] → Delivers R lim fin (e + 1) (R.read s m).1 bs) :
      Delivers R lim fin e s bs

theorem Ended.delivers {R : Reader} {fin : ReadErr} {s : R.State} (h : Ended R fin s) (lim e : Nat) : Delivers R lim fin e s [] := by
  obtain ⟨P, h1, h2⟩ := h
  refine .mk (fun m hm => ?_) (fun m hm x hx => ?_) (fun m hm hn => ?_) (fun m hm hn => ?_) (fun m hm hn => ?_)
  · rw [(h2 s h1 m hm).1]; exact ⟨⟨[], rfl⟩, Nat.zero_le _⟩
  · rw [(h2 s h1 m hm).2.1] at hx
    cases hx
    exact ⟨rfl, (h2 s h1 m hm).1, P, (h2 s h1 m hm).2.2, h2⟩
  all_goals rw [(h2 s h1 m hm).2.1] at hn; cases hn

theorem fullLoop_delivers {R : Reader} {lim : Nat} {fin : ReadErr} {e : Nat} {s : R.State} {bs : List UInt8} (h : Delivers R lim fin e s bs) :
    ∀ (got : List UInt8) (need : Nat), ∃ N s', (∀ fuel, N ≤ fuel → R.fullLoop fuel got need s = .ok (if need ≤ bs.length then some (got ++ bs.take need) else none, s')) ∧
      (need ≤ bs.length → ∃ e', Delivers R lim fin e' s' (bs.drop need)) := by
  induction h with
  | @mk e s bs piece last more few empty ihm ihe =>
    intro got need
    cases need with
    | zero =>
      refine ⟨0, s, fun fuel _ => ?_, fun _ => ⟨e, .mk piece last more few empty⟩⟩
      cases fuel <;> simp [Reader.fullLoop]
    | succ need =>
      have hm : 0 < need + 1 := by omega
      have hp := piece (need + 1) hm
      have key : ∀ fuel, R.fullLoop (fuel + 1) got (need + 1) s = match (R.read s (need + 1)).2.2 with
          | none => R.fullLoop fuel (got ++ (R.read s (need + 1)).2.1) (need + 1 - (R.read s (need + 1)).2.1.length) (R.read s (need + 1)).1
          | some _ => if need + 1 ≤ (R.read s (need + 1)).2.1.length then .ok (some (got ++ (R.read s (need + 1)).2.1), (R.read s (need + 1)).1)
              else .ok (none, (R.read s (need + 1)).1) := fun _ => rfl
      cases hr : (R.read s (need + 1)).2.2 with
      | some x =>
        obtain ⟨l1, l2, l3⟩ := last _ hm x hr
        refine ⟨1, (R.read s (need + 1)).1, fun fuel hf => ?_, fun hle => ⟨0, ?_⟩⟩
        · obtain ⟨fuel, rfl⟩ : ∃ k, fuel = k + 1 := ⟨fuel - 1, by omega⟩
          rw [key, hr]
          simp only
          by_cases hle : need + 1 ≤ bs.length
          · rw [l2, if_pos hle, if_pos hle, List.take_of_length_le (by rw [l2] at hp; omega)]
          · rw [l2, if_neg hle, if_neg hle]
        · rw [List.drop_of_length_le (by rw [l2] at hp; omega)]
          exact l3.delivers _ _
      | none =>
        obtain ⟨⟨rest, hrest⟩, hlen⟩ := hp
        by_cases hc : (R.read s (need + 1)).2.1 = []
        · obtain ⟨N, s', k1, k2⟩ := ihe (need + 1) hm hr hc got (need + 1)
          refine ⟨N + 1, s', fun fuel hf => ?_, k2⟩
          obtain ⟨fuel, rfl⟩ : ∃ k, fuel = k + 1 := ⟨fuel - 1, by omega⟩
          rw [key, hr]
          simp only
          rw [hc, List.append_nil]
          exact k1 fuel (by omega)
        · obtain ⟨N, s', k1, k2⟩ := ihm (need + 1) hm hr hc (got ++ (R.read s (need + 1)).2.1) (need + 1 - (R.read s (need + 1)).2.1.length)
          revert k1 k2 hlen
          generalize hcc : (R.read s (need + 1)).2.1 = c at hrest hc
          intro hlen k1 k2
          subst hrest
          simp only [List.drop_left] at k1 k2
          have e1 : (need + 1 - c.length ≤ rest.length) = (need + 1 ≤ (c ++ rest).length) := by rw [List.length_append]; apply propext; omega
          have e2 : (c ++ rest).take (need + 1) = c ++ rest.take (need + 1 - c.length) := by
            rw [List.take_append, List.take_of_length_le (by omega)]
          have e3 : (c ++ rest).drop (need + 1) = rest.drop (need + 1 - c.length) := by
            rw [List.drop_append, List.drop_of_length_le (by omega), List.nil_append]
          rw [e1] at k2
          simp only [e1, List.append_assoc, ← e2] at k1
          rw [← e3] at k2
          refine ⟨N + 1, s', fun fuel hf => ?_, k2⟩
          obtain ⟨fuel, rfl⟩ : ∃ k, fuel = k + 1 := ⟨fuel - 1, by omega⟩
          rw [key, hr, hcc]
          exact k1 fuel (by omega)

theorem full_delivers {R : Reader} {lim : Nat} {fin : ReadErr} {e : Nat} {s : R.State} {bs : List UInt8} (h : Delivers R lim fin e s bs) (n : Nat) :
    ∃ N s', (∀ fuel, N ≤ fuel → R.full fuel n s = .ok ((readFull n bs).1, s')) ∧
      ((readFull n bs).1 ≠ none → ∃ e', Delivers R lim fin e' s' (readFull n bs).2) := by
  obtain ⟨N, s', h1, h2⟩ := fullLoop_delivers h [] n
  refine ⟨N, s', fun fuel hf => ?_, fun hr => ?_⟩
  · show R.fullLoop fuel [] n s = _
    rw [h1 fuel hf, readFull]
    split <;> rfl
  · unfold readFull at hr ⊢
    split at hr
    · rename_i hle
      rw [if_pos hle]
      exact h2 hle
    · exact absurd rfl hr

theorem readFull_length {n : Nat} {bs buf r : List UInt8} (h : readFull n bs = (some buf, r)) : buf.length = n := by
  unfold readFull at h
  split at h
  · rename_i hle
    cases h
    rw [List.length_take, Nat.min_eq_left hle]
  · cases h

theorem length4 {l : List UInt8} (h : l.length = 4) : ∃ a b c d, l = [a, b, c, d] := by
  match l, h with
  | [a, b, c, d], _ => exact ⟨a, b, c, d, rfl⟩

/-- The two reads of a `Read` method. -/
theorem head_delivers {R : Reader} {lim : Nat} {fin : ReadErr} {e : Nat} {s : R.State} {bs : List UInt8} (h : Delivers R lim fin e s bs) (k : Nat) :
    (∃ N s', (∀ fuel, N ≤ fuel → R.full fuel 4 s = .ok (none, s')) ∧ (readFull 4 bs).1 = none) ∨
    (∃ N s' a b c d r, (∀ fuel, N ≤ fuel → R.full fuel 4 s = .ok (some [a, b, c, d], s')) ∧ readFull 4 bs = (some [a, b, c, d], r) ∧
      ∃ s'', (∀ fuel, N ≤ fuel → R.full fuel (k * getU32 a b c d) s' = .ok ((readFull (k * getU32 a b c d) r).1, s'')) ∧
        ((readFull (k * getU32 a b c d) r).1 ≠ none → ∃ e', Delivers R lim fin e' s'' (readFull (k * getU32 a b c d) r).2)) := by
  obtain ⟨N, s', h1, h2⟩ := full_delivers h 4
  cases hr : readFull 4 bs with
  | mk o r =>
    rw [hr] at h1 h2
    cases o with
    | none => exact .inl ⟨N, s', h1, rfl⟩
    | some buf =>
      obtain ⟨a, b, c, d, rfl⟩ := length4 (readFull_length hr)
      obtain ⟨e', h3⟩ := h2 (by simp)
      obtain ⟨N', s'', k1, k2⟩ := full_delivers h3 (k * getU32 a b c d)
      exact .inr ⟨N + N', s', a, b, c, d, r, fun fuel hf => h1 fuel (by omega), rfl, s'', fun fuel hf => k1 fuel (by omega), k2⟩

theorem units_delivers {α : Type} {R : Reader} {lim : Nat} {fin : ReadErr} {e : Nat} {s : R.State} {bs : List UInt8} (h : Delivers R lim fin e s bs) (k : Nat)
    (dec : List UInt8 → List α) : ∃ N s', (∀ fuel, N ≤ fuel → R.units fuel k dec s = .ok ((readUnits k dec bs).1, s')) ∧
      ((readUnits k dec bs).1 ≠ none → ∃ e', Delivers R lim fin e' s' (readUnits k dec bs).2) := by
  rcases head_delivers h k with ⟨N, s', h1, h2⟩ | ⟨N, s', a, b, c, d, r, h1, h2, s'', h3, h4⟩
  · have hn : (readUnits k dec bs).1 = none := by
      unfold readUnits
      cases hr : readFull 4 bs with
      | mk o r => rw [hr] at h2; cases h2; rfl
    refine ⟨N, s', fun fuel hf => ?_, fun hc => absurd hn hc⟩
    rw [hn, Reader.units, h1 fuel hf]
    rfl
  · have hu : readUnits k dec bs = match readFull (k * getU32 a b c d) r with
        | (some buf, r) => (some (dec buf), r)
        | (none, r) => (none, r) := by
      unfold readUnits
      rw [h2]
      rfl
    cases hr : readFull (k * getU32 a b c d) r with
    | mk o r' =>
      rw [hr] at hu h3 h4
      cases o with
      | none =>
        simp only at hu
        refine ⟨N, s'', fun fuel hf => ?_, fun hc => absurd (by rw [hu]) hc⟩
        rw [hu, Reader.units, h1 fuel hf, ok_bind]
        simp only
        rw [h3 fuel hf]
        rfl
      | some buf =>
        simp only at hu
        refine ⟨N, s'', fun fuel hf => ?_, fun _ => ?_⟩
        · rw [hu, Reader.units, h1 fuel hf, ok_bind]
          simp only
          rw [h3 fuel hf]
          rfl
        · rw [hu]
          exact h4 (by simp)

theorem dict_delivers {R : Reader} {lim : Nat} {fin : ReadErr} {e : Nat} {s : R.State} {bs : List UInt8} (h : Delivers R lim fin e s bs) (d : Dictionary) :
    ∃ N s', (∀ fuel, N ≤ fuel → d.readFrom R fuel s = .ok ((d.read bs).1, (d.read bs).2.1, s')) ∧
      ((d.read bs).2.1 = true → ∃ e', Delivers R lim fin e' s' (d.read bs).2.2) := by
  obtain ⟨N, s', h1, h2⟩ := units_delivers h 4 unitsOfBytes
  refine ⟨N, s', ?_⟩
  unfold Dictionary.read Dictionary.readFrom
  cases hr : readUnits 4 unitsOfBytes bs with
  | mk o r =>
    rw [hr] at h1 h2
    cases o with
    | none => exact ⟨fun fuel hf => by rw [h1 fuel hf]; rfl, fun hc => by cases hc⟩
    | some us => exact ⟨fun fuel hf => by rw [h1 fuel hf]; rfl, fun _ => h2 (by simp)⟩

theorem guide_delivers {R : Reader} {lim : Nat} {fin : ReadErr} {e : Nat} {s : R.State} {bs : List UInt8} (h : Delivers R lim fin e s bs) (g : Guide) :
    ∃ N s', (∀ fuel, N ≤ fuel → g.readFrom R fuel s = .ok ((g.read bs).1, (g.read bs).2.1, s')) ∧
      ((g.read bs).2.1 = true → ∃ e', Delivers R lim fin e' s' (g.read bs).2.2) := by
  obtain ⟨N, s', h1, h2⟩ := units_delivers h 2 guideUnitsOfBytes
  refine ⟨N, s', ?_⟩
  unfold Guide.read Guide.readFrom
  cases hr : readUnits 2 guideUnitsOfBytes bs with
  | mk o r =>
    rw [hr] at h1 h2
    cases o with
    | none => exact ⟨fun fuel hf => by rw [h1 fuel hf]; rfl, fun hc => by cases hc⟩
    | some us => exact ⟨fun fuel hf => by rw [h1 fuel hf]; rfl, fun _ => h2 (by simp)⟩

theorem index_delivers {R : Reader} {lim : Nat} {fin : ReadErr} {e : Nat} {s : R.State} {bs : List UInt8} (h : Delivers R lim fin e s bs) (x : Index) :
    ∃ N s', (∀ fuel, N ≤ fuel → x.readFrom R fuel s = .ok ((x.read bs).1, (x.read bs).2.1, s')) ∧
      ((x.read bs).2.1 = true → ∃ e', Delivers R lim fin e' s' (x.read bs).2.2) := by
  rcases head_delivers h 4 with ⟨N, s', h1, h2⟩ | ⟨N, s', a, b, c, d, r, h1, h2, s'', h3, h4⟩
  · have hn : ∃ r, x.read bs = (x, false, r) := by
      unfold Index.read
      cases hr : readFull 4 bs with
      | mk o r => rw [hr] at h2; cases h2; exact ⟨r, rfl⟩
    obtain ⟨r, hn⟩ := hn
    refine ⟨N, s', fun fuel hf => ?_, fun hc => by rw [hn] at hc; cases hc⟩
    rw [hn, Index.readFrom, h1 fuel hf]
    rfl
  · have hu : x.read bs = match readFull (4 * getU32 a b c d) r with
        | (some buf, r) => ({ units := unitsOfBytes buf }, true, r)
        | (none, r) => ({ units := List.replicate (getU32 a b c d) 0 }, false, r) := by
      unfold Index.read
      rw [h2]
      rfl
    cases hr : readFull (4 * getU32 a b c d) r with
    | mk o r' =>
      rw [hr] at hu h3 h4
      cases o with
      | none =>
        simp only at hu
        refine ⟨N, s'', fun fuel hf => ?_, fun hc => by rw [hu] at hc; cases hc⟩
        rw [hu, Index.readFrom, h1 fuel hf, ok_bind]
        simp only
        rw [h3 fuel hf]
        rfl
      | some buf =>
        simp only at hu
        refine ⟨N, s'', fun fuel hf => ?_, fun _ => ?_⟩
        · rw [hu, Index.readFrom, h1 fuel hf, ok_bind]
          simp only
          rw [h3 fuel hf]
          rfl
        · rw [hu]
          exact h4 (by simp)

end Dawg.Stream
