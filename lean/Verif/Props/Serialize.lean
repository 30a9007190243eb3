import Verif.Proof.Serialize
/-! # C19, C20, C21: files -/
namespace Dawg.Props

/-- Every unit fits into 32 bits (a type invariant of the Go slices). -/
def Units32 (us : List Nat) : Prop := us.length < 4294967296 ∧ ∀ u ∈ us, u < 4294967296

example : Units32 [4294967295, 0, 17] := by unfold Units32; decide

/-! ## C19 -/

/-- **C19** Whatever the receiver and whatever follows in the stream, reading back a written
dictionary yields it and consumes exactly what was written. -/
theorem C19_dictionary_roundtrip (d recv : Dictionary) (h : Units32 d.units) (rest : List UInt8) :
    recv.read (d.write ++ rest) = (d, true, rest) ∧
    Dictionary.readNew (d.write ++ rest) = (some d, rest) := by
  have : ∀ r : Dictionary, r.read (d.write ++ rest) = (d, true, rest) := fun r => by
    unfold Dictionary.read Dictionary.write Dictionary.size
    rw [readUnits_write 4 _ _ h.1 _ _ (bytesOfUnits_length _), unitsOfBytes_bytesOfUnits _ h.2]
  exact ⟨this recv, by simp [Dictionary.readNew, this]⟩

/-- **C19** The same for guides and ranked guides. -/
theorem C19_guide_roundtrip (g recv : Guide) (h : g.units.length < 4294967296) (rest : List UInt8) :
    recv.read (g.write ++ rest) = (g, true, rest) ∧
    Guide.readNew (g.write ++ rest) = (some g, rest) := by
  have : ∀ r : Guide, r.read (g.write ++ rest) = (g, true, rest) := fun r => by
    unfold Guide.read Guide.write Guide.size
    rw [readUnits_write 2 _ _ h _ _ (bytesOfGuideUnits_length _), guideUnitsOfBytes_bytesOf]
  exact ⟨this recv, by simp [Guide.readNew, this]⟩

/-- **C19** The same for indices. -/
theorem C19_index_roundtrip (x recv : Index) (h : Units32 x.units) (rest : List UInt8) :
    recv.read (x.write ++ rest) = (x, true, rest) ∧
    Index.readNew (x.write ++ rest) = (some x, rest) := by
  have hr : readUnits 4 unitsOfBytes (x.write ++ rest) = (some x.units, rest) := by
    unfold Index.write Index.size
    rw [readUnits_write 4 _ _ h.1 _ _ (bytesOfUnits_length _), unitsOfBytes_bytesOfUnits _ h.2]
  have : ∀ r : Index, r.read (x.write ++ rest) = (x, true, rest) := fun r => by
    have := Index.read_eq r (x.write ++ rest)
    rw [hr] at this
    exact Prod.ext (this.2 _ rfl) this.1
  exact ⟨this recv, by simp [Index.readNew, this]⟩

/-- **C19** Objects written one after another are read back one after another. -/
theorem C19_stream_roundtrip (d : Dictionary) (g : Guide) (x : Index) (hd : Units32 d.units)
    (hg : g.units.length < 4294967296) (hx : Units32 x.units) (rest : List UInt8) :
    ∃ r1 r2, Dictionary.readNew (d.write ++ g.write ++ x.write ++ rest) = (some d, r1) ∧
      Guide.readNew r1 = (some g, r2) ∧ Index.readNew r2 = (some x, rest) := by
  refine ⟨g.write ++ x.write ++ rest, x.write ++ rest, ?_, ?_, ?_⟩
  · have := (C19_dictionary_roundtrip d d hd (g.write ++ x.write ++ rest)).2
    simpa [List.append_assoc] using this
  · have := (C19_guide_roundtrip g g hg (x.write ++ rest)).2
    simpa [List.append_assoc] using this
  · exact (C19_index_roundtrip x x hx rest).2

example : Dictionary.readNew (({ units := [1, 4294967295] } : Dictionary).write ++ [9]) =
    (some { units := [1, 4294967295] }, [9]) := by decide

/-! ## C20 -/

/-- **C20** Exactly `FileSize()` bytes are written, for every kind of object. -/
theorem C20_file_size (d : Dictionary) (g : Guide) (x : Index) :
    (d.write.length = d.fileSize ∧ d.fileSize = 4 + d.totalSize) ∧
    (g.write.length = g.fileSize ∧ g.fileSize = 4 + g.totalSize) ∧
    (x.write.length = x.fileSize ∧ x.fileSize = 4 + x.totalSize) := by
  refine ⟨⟨?_, rfl⟩, ⟨?_, rfl⟩, ⟨?_, rfl⟩⟩
  · simp [Dictionary.write, Dictionary.fileSize, Dictionary.totalSize, Dictionary.size, bytesOfUnits_length]
  · simp [Guide.write, Guide.fileSize, Guide.totalSize, Guide.size, bytesOfGuideUnits_length]
  · simp [Index.write, Index.fileSize, Index.totalSize, Index.size, bytesOfUnits_length]

/-! ## C21 -/

/-- **C21** A strict prefix of a dictionary file is rejected, and the receiver keeps its contents. -/
theorem C21_dictionary_truncated (d recv : Dictionary) (h : Units32 d.units) (p : List UInt8)
    (hp : p <+: d.write) (hlt : p.length < d.write.length) :
    (∃ r, recv.read p = (recv, false, r)) ∧ ∃ r, Dictionary.readNew p = (none, r) := by
  have := readUnits_truncated 4 unitsOfBytes _ h.1 _ p (bytesOfUnits_length d.units) hp hlt
  simp [Dictionary.read, Dictionary.readNew, this]

/-- **C21** The same for guides and ranked guides. -/
theorem C21_guide_truncated (g recv : Guide) (h : g.units.length < 4294967296) (p : List UInt8)
    (hp : p <+: g.write) (hlt : p.length < g.write.length) :
    (∃ r, recv.read p = (recv, false, r)) ∧ ∃ r, Guide.readNew p = (none, r) := by
  have := readUnits_truncated 2 guideUnitsOfBytes _ h _ p (bytesOfGuideUnits_length g.units) hp hlt
  simp [Guide.read, Guide.readNew, this]

/-- **C21**, for indices, the half that holds: the truncated file is rejected.  (Missing: the receiver
keeps its contents, which is false, see `C21_index_counterexample`.) -/
theorem C21_index_truncated_partial (x recv : Index) (h : Units32 x.units) (p : List UInt8)
    (hp : p <+: x.write) (hlt : p.length < x.write.length) :
    (∃ x' r, recv.read p = (x', false, r)) ∧ ∃ r, Index.readNew p = (none, r) := by
  have ht := readUnits_truncated 4 unitsOfBytes _ h.1 _ p (bytesOfUnits_length x.units) hp hlt
  have h2 : ∀ r : Index, (r.read p).2 = (false, []) := fun r => by
    rw [(Index.read_eq r p).1, ht]; rfl
  refine ⟨⟨(recv.read p).1, [], ?_⟩, [], ?_⟩
  · exact Prod.ext rfl (h2 recv)
  · unfold Index.readNew
    have := h2 Index.new
    rcases hh : Index.new.read p with ⟨a, b, c⟩
    rw [hh] at this; simp at this; obtain ⟨rfl, rfl⟩ := this; rfl

/-- **C21** is false for `Index`: a failed `Read` of a truncated file destroys the receiver. -/
theorem C21_index_counterexample :
    ∃ (x recv : Index) (p : List UInt8), Units32 x.units ∧ p <+: x.write ∧ p.length < x.write.length ∧
      ∃ x' r, recv.read p = (x', false, r) ∧ x' ≠ recv :=
  ⟨{ units := [5] }, { units := [7, 8] }, [1, 0, 0, 0, 5], by unfold Units32; decide, by decide, by decide,
    { units := [0] }, [], by decide, by decide⟩

example : ([1, 0, 0, 0, 5, 0] : List UInt8) <+: ({ units := [5] } : Dictionary).write := by decide

end Dawg.Props
