import Verif.Proof.Guide.RankedNext
import Verif.Proof.Guide.RankedOrder
/-! # The exact order in which a ranked completer lists keys -/
namespace Dawg.Guided
open Dawg Dawg.Spec Dawg.Client Dawg.Abs Dawg.Dict
attribute [-simp] List.length_flatten

/-- What is listed from some tasks and some candidates: the tasks are opened, the first of the candidates with the greatest value is taken, and what is left
on the way to it are the next tasks. -/
inductive InTurn (ord : Lang → List UInt8) : List Task → List Cand → List Entry → Prop
  | done {ts} : Opened ord ts [] → InTurn ord ts [] []
  | next {ts cs new A C ts' out} {e : Entry} : Opened ord ts new → new ++ cs = A ++ (e, ts') :: C → (∀ x ∈ A, x.1.2 < e.2) → (∀ x ∈ C, x.1.2 ≤ e.2) →
      InTurn ord ts' (A ++ C) out → InTurn ord ts cs (e :: out)

/-! ## All values equal -/

/-- All candidates are listed. -/
theorem InTurn.mem {ord ts cs out} (h : InTurn ord ts cs out) : ∀ c ∈ cs, c.1 ∈ out := by
  induction h with
  | done => simp
  | @next ts cs new A C ts' out e _ h2 _ _ _ ih =>
    intro c hc
    have : c ∈ A ++ (e, ts') :: C := by rw [← h2]; exact List.mem_append_right _ hc
    rcases List.mem_append.1 this with h | h
    · exact List.mem_cons_of_mem _ (ih c (List.mem_append_left _ h))
    · rcases List.mem_cons.1 h with rfl | h
      · exact List.mem_cons_self
      · exact List.mem_cons_of_mem _ (ih c (List.mem_append_right _ h))

/-- First the first of every list, then what is left of them, from the last to the first. -/
def zigzag (subs : List Lang) : Lang := subs.flatMap (·.take 1) ++ subs.reverse.flatMap (·.drop 1)

/-- The keys of `L` in the order of a ranked completer, when all values are equal; the first argument bounds the depth. -/
def zigN : Nat → Lang → Lang
  | 0, _ => []
  | n + 1, L => zigzag (here L :: (heads L).map (fun l => (zigN n (residual L [l])).map (pre [l])))

/-- The length of the longest key. -/
def depthOf (L : Lang) : Nat := (L.map (fun e => e.1.length)).foldl max 0

def zig (L : Lang) : Lang := zigN (depthOf L + 1) L

theorem le_foldl_max (l : List Nat) : ∀ a, a ≤ l.foldl max a ∧ ∀ x ∈ l, x ≤ l.foldl max a := by
  induction l with
  | nil => simp
  | cons y l ih =>
    intro a
    obtain ⟨h1, h2⟩ := ih (max a y)
    simp only [List.foldl_cons, List.mem_cons]
    refine ⟨by omega, ?_⟩
    rintro x (rfl | hx)
    · omega
    · exact h2 x hx

theorem le_depthOf {L : Lang} {e : Entry} (h : e ∈ L) : e.1.length ≤ depthOf L :=
  (le_foldl_max _ 0).2 _ (List.mem_map.2 ⟨e, h, rfl⟩)

theorem zigzag_cons (s : Lang) (subs : List Lang) : zigzag (s :: subs) = s.take 1 ++ (zigzag subs ++ s.drop 1) := by
  unfold zigzag
  simp [List.flatMap_append]

theorem map_zigzag (f : Entry → Entry) (subs : List Lang) : (zigzag subs).map f = zigzag (subs.map (·.map f)) := by
  induction subs with
  | nil => rfl
  | cons s subs ih => simp [zigzag_cons, ih, List.map_take]

theorem residual_depth {L : Lang} {l : UInt8} {e : Entry} (h : e ∈ residual L [l]) : (l :: e.1, e.2) ∈ L := by
  obtain ⟨a, b⟩ := e
  rw [mem_residual] at h
  exact h

theorem zigN_stable : ∀ (n m : Nat) {L : Lang}, (∀ e ∈ L, e.1.length < n) → n ≤ m → zigN m L = zigN n L
  | 0, m, L, hl, _ => by
    have : L = [] := by
      cases L with
      | nil => rfl
      | cons e L => exact absurd (hl e (by simp)) (by omega)
    subst this
    cases m with
    | zero => rfl
    | succ m => simp [zigN, heads, here, zigzag]
  | n + 1, m, L, hl, hm => by
    obtain ⟨m, rfl⟩ : ∃ k, m = k + 1 := ⟨m - 1, by omega⟩
    rw [zigN, zigN]
    congr 2
    apply List.map_congr_left
    intro l _
    rw [zigN_stable n m (fun e he => by have := hl _ (residual_depth he); simp at this; omega) (by omega)]

theorem zigN_zig {n : Nat} {L : Lang} (h : ∀ e ∈ L, e.1.length < n) : zigN n L = zig L := by
  unfold zig
  rcases Nat.le_total n (depthOf L + 1) with h1 | h1
  · exact (zigN_stable _ _ h h1).symm
  · exact zigN_stable _ _ (fun e he => by have := le_depthOf he; omega) h1

theorem zig_eq (L : Lang) : zig L = zigzag (here L :: (heads L).map (fun l => (zig (residual L [l])).map (pre [l]))) := by
  rw [zig, zigN]
  congr 2
  apply List.map_congr_left
  intro l _
  rw [zigN_zig]
  intro e he
  have := le_depthOf (residual_depth he)
  simp at this
  omega

/-- The keys behind one transition. -/
def zigSub (L : Lang) (l : UInt8) : Lang := if l = 0 then here L else (zig (residual L [l])).map (pre [l])

/-- What is listed from a task. -/
def zigTask (t : Task) : Lang := (zigzag (t.2.2.map (zigSub t.2.1))).map (pre t.1)

theorem zigTask_nil (k : Key) (L : Lang) : zigTask (k, L, []) = [] := rfl

section
variable {D : Dictionary} {At : Nat → Lang → Prop} {kid : Nat → UInt8 → Nat} {clean : UInt8 → Prop}

theorem zigzag_arcs (V : View D At kid clean) {u L} (h : At u L) : zigzag ((arcs L).map (zigSub L)) = zig L := by
  rw [zig_eq]
  have hh : (heads L).map (zigSub L) = (heads L).map (fun l => (zig (residual L [l])).map (pre [l])) := by
    apply List.map_congr_left
    intro l hl
    unfold zigSub
    rw [if_neg (V.heads_ne_zero h hl)]
  unfold arcs
  by_cases hany : L.any (fun e => e.1 == []) = true
  · rw [if_pos hany, List.singleton_append, List.map_cons, hh]
    rfl
  · rw [if_neg hany, List.nil_append, hh]
    have : here L = [] := by
      unfold here
      rw [List.filter_eq_nil_iff]
      intro e he hc
      exact hany (List.any_eq_true.2 ⟨e, he, hc⟩)
    rw [this, zigzag_cons]
    simp

/-- Tasks whose states are in the dictionary, and whose keys have at most `M` bytes. -/
def TaskOk (At : Nat → Lang → Prop) (M : Nat) (t : Task) : Prop := (∃ u, At u t.2.1) ∧ (∀ l ∈ t.2.2, l ∈ arcs t.2.1) ∧ ∀ e ∈ t.2.1, t.1.length + e.1.length ≤ M

/-- The way down does not depend on what the order is elsewhere. -/
theorem Dive.congr (V : View D At kid clean) {ord ord' : Lang → List UInt8} (ho : OrdPerm At ord) (he : ∀ {u L}, At u L → ord L = ord' L) {M : Nat} {k L ls e ts}
    (h : Dive ord k L ls e ts) : TaskOk At M (k, L, ls) →
      Dive ord' k L ls e ts ∧ (∀ t ∈ ts, TaskOk At M t) ∧ e.1.length + 1 = k.length + ts.length ∧ e.1.length ≤ M := by
  induction h with
  | @here k L post v hv =>
    rintro ⟨hu, h1, h2⟩
    refine ⟨.here hv, ?_, by simp, by have := h2 _ hv; simpa using this⟩
    intro t ht
    rw [List.mem_singleton] at ht
    subst ht
    exact ⟨hu, fun l hl => h1 l (List.mem_cons_of_mem _ hl), h2⟩
  | @step k L l post e ts h0 hd ih =>
    rintro ⟨⟨u, hu⟩, h1, h2⟩
    have hl : l ∈ heads L := by
      rcases mem_arcs.1 (h1 l List.mem_cons_self) with ⟨h, _⟩ | h
      · exact absurd h h0
      · exact h
    have hr := V.step hu hl
    obtain ⟨i1, i2, i3, i4⟩ := ih ⟨⟨_, hr⟩, fun l hl => (ho hr).mem_iff.1 hl, fun e he => by
      have := h2 _ (residual_depth he)
      simp only [List.length_cons, List.length_append, List.length_nil] at this ⊢
      omega⟩
    refine ⟨.step h0 (by rw [← he hr]; exact i1), ?_, by simp at i3 ⊢; omega, i4⟩
    intro t ht
    rcases List.mem_cons.1 ht with rfl | ht
    · exact ⟨⟨u, hu⟩, fun l hl => h1 l (List.mem_cons_of_mem _ hl), h2⟩
    · exact i2 t ht

theorem Opened.congr (V : View D At kid clean) {ord ord' : Lang → List UInt8} (ho : OrdPerm At ord) (he : ∀ {u L}, At u L → ord L = ord' L) {M : Nat} {ts new}
    (h : Opened ord ts new) : (∀ t ∈ ts, TaskOk At M t) → Opened ord' ts new ∧ ∀ c ∈ new, (∀ t ∈ c.2, TaskOk At M t) := by
  induction h with
  | nil => exact fun _ => ⟨.nil, by simp⟩
  | skip _ ih =>
    intro h
    obtain ⟨i1, i2⟩ := ih (fun t ht => h t (List.mem_cons_of_mem _ ht))
    exact ⟨.skip i1, i2⟩
  | dive hd _ ih =>
    intro h
    obtain ⟨i1, i2⟩ := ih (fun t ht => h t (List.mem_cons_of_mem _ ht))
    obtain ⟨j1, j2, _⟩ := hd.congr V ho he (h _ List.mem_cons_self)
    refine ⟨.dive j1 i1, ?_⟩
    intro c hc
    rcases List.mem_cons.1 hc with rfl | hc
    · exact j2
    · exact i2 c hc

theorem InTurn.congr (V : View D At kid clean) {ord ord' : Lang → List UInt8} (ho : OrdPerm At ord) (he : ∀ {u L}, At u L → ord L = ord' L) {M : Nat} {ts cs out}
    (h : InTurn ord ts cs out) : (∀ t ∈ ts, TaskOk At M t) → (∀ c ∈ cs, ∀ t ∈ c.2, TaskOk At M t) → InTurn ord' ts cs out := by
  induction h with
  | done h => exact fun h1 _ => .done (h.congr V ho he h1).1
  | @next ts cs new A C ts' out e h1 h2 h3 h4 _ ih =>
    intro k1 k2
    obtain ⟨j1, j2⟩ := h1.congr V ho he k1
    have hall : ∀ c ∈ A ++ (e, ts') :: C, ∀ t ∈ c.2, TaskOk At M t := by
      rw [← h2]
      intro c hc
      rcases List.mem_append.1 hc with hc | hc
      · exact j2 c hc
      · exact k2 c hc
    refine .next j1 h2 h3 h4 (ih (hall (e, ts') (by simp)) ?_)
    intro c hc
    refine hall c ?_
    rcases List.mem_append.1 hc with hc | hc
    · exact List.mem_append_left _ hc
    · exact List.mem_append_right _ (List.mem_cons_of_mem _ hc)

theorem Dive.zig (V : View D At kid clean) {M : Nat} {k L ls e ts} (h : Dive arcs k L ls e ts) : TaskOk At M (k, L, ls) → zigTask (k, L, ls) = e :: ts.flatMap zigTask := by
  induction h with
  | @here k L post v hv =>
    rintro ⟨⟨u, hu⟩, _, _⟩
    unfold zigTask
    simp only [List.map_cons, zigzag_cons, List.map_append, List.flatMap_cons, List.flatMap_nil, List.append_nil]
    unfold zigSub
    rw [if_pos rfl, V.here_eq hu hv]
    simp [pre]
  | @step k L l post e ts h0 hd ih =>
    rintro ⟨⟨u, hu⟩, h1, h2⟩
    have hl : l ∈ heads L := by
      rcases mem_arcs.1 (h1 l List.mem_cons_self) with ⟨h, _⟩ | h
      · exact absurd h h0
      · exact h
    have hr := V.step hu hl
    have i := ih ⟨⟨_, hr⟩, fun l hl => hl, fun e he => by
      have := h2 _ (residual_depth he)
      simp only [List.length_cons, List.length_append, List.length_nil] at this ⊢
      omega⟩
    unfold zigTask at i
    simp only at i
    rw [zigzag_arcs V hr] at i
    rw [zigTask]
    simp only [List.map_cons, zigzag_cons, List.map_append, List.flatMap_cons]
    have hs : (zigSub L l).map (pre k) = e :: ts.flatMap zigTask := by
      unfold zigSub
      rw [if_neg h0, map_pre_map_pre, i]
      rfl
    rw [List.map_take, List.map_drop, hs]
    simp [zigTask]

/-- When all values are equal, the tasks are worked off one after the other. -/
theorem Opened.zig (V : View D At kid clean) {M : Nat} {ts new} (h : Opened arcs ts new) : (∀ t ∈ ts, TaskOk At M t) →
    ts.flatMap zigTask = new.flatMap (fun c => c.1 :: c.2.flatMap zigTask) := by
  induction h with
  | nil => simp
  | skip _ ih =>
    intro h
    rw [List.flatMap_cons, zigTask_nil, List.nil_append, ih (fun t ht => h t (List.mem_cons_of_mem _ ht))]
  | dive hd _ ih =>
    intro h
    rw [List.flatMap_cons, List.flatMap_cons, hd.zig V (h _ List.mem_cons_self), ih (fun t ht => h t (List.mem_cons_of_mem _ ht))]

theorem InTurn.zig (V : View D At kid clean) (ho : OrdPerm At arcs) {M w : Nat} {ts cs out} (h : InTurn arcs ts cs out) : (∀ t ∈ ts, TaskOk At M t) → (∀ c ∈ cs, ∀ t ∈ c.2, TaskOk At M t) →
    (∀ e ∈ out, e.2 = w) → out = ts.flatMap zigTask ++ cs.flatMap (fun c => c.1 :: c.2.flatMap zigTask) := by
  induction h with
  | done h => intro h1 _ _; rw [h.zig V h1]; simp
  | @next ts cs new A C ts' out e h1 h2 h3 h4 hr ih =>
    intro k1 k2 k3
    have j2 := (h1.congr (ord' := arcs) V ho (fun _ => rfl) k1).2
    have hA : A = [] := by
      cases A with
      | nil => rfl
      | cons a A =>
        have h5 := h3 a (by simp)
        have h6 := k3 _ (List.mem_cons_of_mem _ (hr.mem a (by simp)))
        have h7 := k3 e (by simp)
        omega
    subst hA
    have hall : ∀ c ∈ (e, ts') :: C, ∀ t ∈ c.2, TaskOk At M t := by
      rw [show (e, ts') :: C = [] ++ (e, ts') :: C from rfl, ← h2]
      intro c hc
      rcases List.mem_append.1 hc with hc | hc
      · exact j2 c hc
      · exact k2 c hc
    rw [h1.zig V k1, ← List.flatMap_append, h2, List.nil_append, List.flatMap_cons,
      ih (hall (e, ts') (by simp)) (fun c hc => hall c (List.mem_cons_of_mem _ hc)) (fun e he => k3 e (List.mem_cons_of_mem _ he))]
    simp

end

/-! ## The general order -/

/-- The best of the values. -/
def bestOf (cmp : Int → Int → Bool) : Lang → Int
  | [] => 0
  | e :: L => L.foldl (fun a e => if cmp a e.2 then (e.2 : Int) else a) e.2

/-- Inserting after everything that comes first. -/
def place (before : UInt8 → UInt8 → Bool) (x : UInt8) : List UInt8 → List UInt8
  | [] => [x]
  | y :: ys => if before y x then y :: place before x ys else x :: y :: ys

/-- The bytes that keys go on with (0 for the end of a key): first the one with the best key behind it; of two that are equally good the smaller one. -/
def byRank (cmp : Int → Int → Bool) (L : Lang) : List UInt8 :=
  (arcs L).foldr (place (fun a b => cmp (bestOf cmp (underT L [b])) (bestOf cmp (underT L [a])) ||
    (decide (bestOf cmp (underT L [b]) = bestOf cmp (underT L [a])) && decide (a ≤ b)))) []

/-- The way down along the best bytes: the key at its end, and what is left on the way. -/
def dive (ord : Lang → List UInt8) : Nat → Key → Lang → List UInt8 → Option Cand
  | 0, _, _, _ => none
  | _ + 1, _, _, [] => none
  | n + 1, k, L, l :: post =>
    if l = 0 then (here L).head?.map (fun e => ((k, e.2), [(k, L, post)]))
    else (dive ord n (k ++ [l]) (residual L [l]) (ord (residual L [l]))).map (fun c => (c.1, (k, L, post) :: c.2))

/-- The first of those with the greatest value, and the others. -/
def takeBest : List Cand → Option (Cand × List Cand)
  | [] => none
  | c :: cs => match takeBest cs with
    | none => some (c, [])
    | some (d, rest) => if d.1.2 ≤ c.1.2 then some (c, cs) else some (d, c :: rest)

/-- The listing: the tasks become candidates, a best candidate is taken, and what is left on the way to it are the next tasks. -/
def rankedFrom (ord : Lang → List UInt8) (depth : Nat) : Nat → List Task → List Cand → List Entry
  | 0, _, _ => []
  | n + 1, ts, cs => match takeBest (ts.filterMap (fun t => dive ord depth t.1 t.2.1 t.2.2) ++ cs) with
    | none => []
    | some (c, cs) => c.1 :: rankedFrom ord depth n c.2 cs

def rankedOrder (cmp : Int → Int → Bool) (L : Lang) : List Entry :=
  rankedFrom (byRank cmp) (depthOf L + 1) L.length [([], L, byRank cmp L)] []

theorem takeBest_eq {e : Entry} {ts : List Task} {C : List Cand} (hC : ∀ x ∈ C, x.1.2 ≤ e.2) : ∀ {A : List Cand}, (∀ x ∈ A, x.1.2 < e.2) →
    takeBest (A ++ (e, ts) :: C) = some ((e, ts), A ++ C)
  | [], _ => by
    have key : ∀ (C : List Cand), (takeBest C = none ∧ C = []) ∨ ∃ d rest, takeBest C = some (d, rest) ∧ d ∈ C := by
      intro C
      induction C with
      | nil => exact .inl ⟨rfl, rfl⟩
      | cons c C ih =>
        refine .inr ?_
        rw [takeBest]
        rcases ih with ⟨h, _⟩ | ⟨d, rest, h, hd⟩
        · rw [h]; exact ⟨c, [], rfl, by simp⟩
        · rw [h]
          by_cases hle : d.1.2 ≤ c.1.2
          · simp only [if_pos hle]; exact ⟨c, C, rfl, by simp⟩
          · simp only [if_neg hle]; exact ⟨d, c :: rest, rfl, by simp [hd]⟩
    rw [List.nil_append, List.nil_append, takeBest]
    rcases key C with ⟨h, rfl⟩ | ⟨d, rest, h, hd⟩
    · rw [h]
    · rw [h]
      simp only [if_pos (hC d hd)]
  | a :: A, hA => by
    rw [List.cons_append, takeBest, takeBest_eq hC (fun x hx => hA x (List.mem_cons_of_mem _ hx))]
    have := hA a (by simp)
    simp only [if_neg (show ¬ e.2 ≤ a.1.2 by omega), List.cons_append]

section
variable {D : Dictionary} {At : Nat → Lang → Prop} {kid : Nat → UInt8 → Nat} {clean : UInt8 → Prop} {sorter : Sorter} {cmp : Int → Int → Bool}

theorem Dive.exec (V : View D At kid clean) {ord : Lang → List UInt8} (ho : OrdPerm At ord) {M : Nat} {k L ls e ts} (h : Dive ord k L ls e ts) :
    TaskOk At M (k, L, ls) → ∀ n, ts.length ≤ n → dive ord n k L ls = some (e, ts) := by
  induction h with
  | @here k L post v hv =>
    rintro ⟨⟨u, hu⟩, _, _⟩ n hn
    obtain ⟨n, rfl⟩ : ∃ j, n = j + 1 := ⟨n - 1, by simp at hn; omega⟩
    rw [dive, if_pos rfl, V.here_eq hu hv]
    rfl
  | @step k L l post e ts h0 hd ih =>
    rintro ⟨⟨u, hu⟩, h1, h2⟩ n hn
    have hl : l ∈ heads L := by
      rcases mem_arcs.1 (h1 l List.mem_cons_self) with ⟨h, _⟩ | h
      · exact absurd h h0
      · exact h
    have hr := V.step hu hl
    obtain ⟨n, rfl⟩ : ∃ j, n = j + 1 := ⟨n - 1, by simp at hn; omega⟩
    rw [dive, if_neg h0, ih ⟨⟨_, hr⟩, fun l hl => (ho hr).mem_iff.1 hl, fun e he => by
      have := h2 _ (residual_depth he)
      simp only [List.length_cons, List.length_append, List.length_nil] at this ⊢
      omega⟩ n (by simp at hn; omega)]
    rfl

theorem Opened.exec (V : View D At kid clean) {ord : Lang → List UInt8} (ho : OrdPerm At ord) {M : Nat} {ts new} (h : Opened ord ts new) :
    (∀ t ∈ ts, TaskOk At M t) → ts.filterMap (fun t => Guided.dive ord (M + 1) t.1 t.2.1 t.2.2) = new := by
  induction h with
  | nil => intro _; rfl
  | skip _ ih =>
    intro h
    rw [List.filterMap_cons]
    simp only [Guided.dive]
    exact ih (fun t ht => h t (List.mem_cons_of_mem _ ht))
  | dive hd _ ih =>
    intro h
    have hok := h _ List.mem_cons_self
    obtain ⟨_, _, h3, h4⟩ := hd.congr (ord' := ord) V ho (fun _ => rfl) hok
    rw [List.filterMap_cons]
    simp only [hd.exec V ho hok (M + 1) (by omega), ih (fun t ht => h t (List.mem_cons_of_mem _ ht))]

theorem InTurn.exec (V : View D At kid clean) {ord : Lang → List UInt8} (ho : OrdPerm At ord) {M : Nat} {ts cs out} (h : InTurn ord ts cs out) :
    (∀ t ∈ ts, TaskOk At M t) → (∀ c ∈ cs, ∀ t ∈ c.2, TaskOk At M t) → ∀ n, out.length ≤ n → rankedFrom ord (M + 1) n ts cs = out := by
  induction h with
  | done h =>
    intro h1 _ n _
    cases n with
    | zero => rfl
    | succ n => rw [rankedFrom, h.exec V ho h1]; rfl
  | @next ts cs new A C ts' out e h1 h2 h3 h4 hr ih =>
    intro k1 k2 n hn
    have j2 := (h1.congr (ord' := ord) V ho (fun _ => rfl) k1).2
    have hall : ∀ c ∈ A ++ (e, ts') :: C, ∀ t ∈ c.2, TaskOk At M t := by
      rw [← h2]
      intro c hc
      rcases List.mem_append.1 hc with hc | hc
      · exact j2 c hc
      · exact k2 c hc
    obtain ⟨n, rfl⟩ : ∃ j, n = j + 1 := ⟨n - 1, by simp at hn; omega⟩
    rw [rankedFrom, h1.exec V ho k1, h2, takeBest_eq h4 h3]
    simp only
    rw [ih (hall (e, ts') (by simp)) (fun c hc => hall c (by
      rcases List.mem_append.1 hc with hc | hc
      · exact List.mem_append_left _ hc
      · exact List.mem_append_right _ (List.mem_cons_of_mem _ hc))) n (by simp at hn; omega)]

theorem bestOf_spec (hc : StrictTotal cmp) {L : Lang} (hL : L ≠ []) : (∃ e ∈ L, (e.2 : Int) = bestOf cmp L) ∧ ∀ e ∈ L, Upto cmp e.2 (bestOf cmp L) := by
  cases L with
  | nil => exact absurd rfl hL
  | cons e L =>
    have key : ∀ (L : Lang) (a : Int), ((L.foldl (fun a e => if cmp a e.2 then (e.2 : Int) else a) a = a ∨ ∃ e ∈ L, (e.2 : Int) = L.foldl (fun a e => if cmp a e.2 then (e.2 : Int) else a) a)) ∧
        Upto cmp a (L.foldl (fun a e => if cmp a e.2 then (e.2 : Int) else a) a) ∧ ∀ e ∈ L, Upto cmp e.2 (L.foldl (fun a e => if cmp a e.2 then (e.2 : Int) else a) a) := by
      intro L
      induction L with
      | nil => intro a; exact ⟨.inl rfl, .inl rfl, by simp⟩
      | cons f L ih =>
        intro a
        simp only [List.foldl_cons]
        by_cases h : cmp a f.2 = true
        · simp only [if_pos h]
          obtain ⟨i1, i2, i3⟩ := ih f.2
          refine ⟨.inr ?_, (Upto.trans hc (.inr h) i2), ?_⟩
          · rcases i1 with i1 | ⟨e, he, i1⟩
            · exact ⟨f, by simp, i1.symm⟩
            · exact ⟨e, by simp [he], i1⟩
          · intro e he
            rcases List.mem_cons.1 he with rfl | he
            · exact i2
            · exact i3 e he
        · simp only [if_neg h]
          obtain ⟨i1, i2, i3⟩ := ih a
          refine ⟨?_, i2, ?_⟩
          · rcases i1 with i1 | ⟨e, he, i1⟩
            · exact .inl i1
            · exact .inr ⟨e, by simp [he], i1⟩
          · intro e he
            rcases List.mem_cons.1 he with rfl | he
            · have hu : Upto cmp e.2 a := by
                by_cases heq : (e.2 : Int) = a
                · exact .inl heq
                · rcases hc.total _ _ heq with h1 | h1
                  · exact .inr h1
                  · exact absurd h1 h
              exact Upto.trans hc hu i2
            · exact i3 e he
    obtain ⟨h1, h2, h3⟩ := key L e.2
    refine ⟨?_, ?_⟩
    · rcases h1 with h1 | ⟨f, hf, h1⟩
      · exact ⟨e, by simp, h1.symm⟩
      · exact ⟨f, by simp [hf], h1⟩
    · intro f hf
      rcases List.mem_cons.1 hf with rfl | hf
      · exact h2
      · exact h3 f hf

theorem Upto.antisymm (hc : StrictTotal cmp) {a b : Int} (h1 : Upto cmp a b) (h2 : Upto cmp b a) : a = b := by
  rcases h1 with h1 | h1
  · exact h1
  · rcases h2 with h2 | h2
    · exact h2.symm
    · rw [hc.asymm _ _ h1] at h2; cases h2

theorem mkLink_best (hs : StableSort sorter) (hc : StrictTotal cmp) (V : View D At kid clean) {u L} (h : At u L) {l : UInt8} (hl : l ∈ arcs L) :
    (mkLink D sorter cmp L l).value = bestOf cmp (underT L [l]) := by
  obtain ⟨⟨e, he1, he2⟩, h2⟩ := mkLink_spec hs hc V h hl
  obtain ⟨⟨f, hf1, hf2⟩, h4⟩ := bestOf_spec hc (List.ne_nil_of_mem he1)
  exact Upto.antisymm hc (he2 ▸ h4 e he1) (hf2 ▸ h2 f hf1)

theorem place_perm (before : UInt8 → UInt8 → Bool) (x : UInt8) (l : List UInt8) : (place before x l).Perm (x :: l) := by
  induction l with
  | nil => exact List.Perm.refl _
  | cons y l ih =>
    rw [place]
    split
    · exact (ih.cons y).trans (List.Perm.swap ..)
    · exact List.Perm.refl _

theorem place_sorted {before : UInt8 → UInt8 → Bool} (htr : ∀ a b c, before a b = true → before b c = true → before a c = true) (htot : ∀ a b, before a b = false → before b a = true)
    (x : UInt8) {l : List UInt8} (h : l.Pairwise (fun a b => before a b = true)) : (place before x l).Pairwise (fun a b => before a b = true) := by
  induction l with
  | nil => simp [place]
  | cons y l ih =>
    rw [List.pairwise_cons] at h
    rw [place]
    by_cases hy : before y x = true
    · rw [if_pos hy, List.pairwise_cons]
      refine ⟨?_, ih h.2⟩
      intro z hz
      rcases List.mem_cons.1 ((place_perm _ _ _).mem_iff.1 hz) with rfl | hz
      · exact hy
      · exact h.1 z hz
    · rw [if_neg hy, List.pairwise_cons]
      have hxy := htot _ _ (by simpa using hy)
      refine ⟨?_, List.pairwise_cons.2 h⟩
      intro z hz
      rcases List.mem_cons.1 hz with rfl | hz
      · exact hxy
      · exact htr _ _ _ hxy (h.1 z hz)

theorem byRank_perm (L : Lang) : (byRank cmp L).Perm (arcs L) := by
  unfold byRank
  generalize arcs L = l
  induction l with
  | nil => exact List.Perm.refl _
  | cons x l ih => rw [List.foldr_cons]; exact (place_perm _ _ _).trans (ih.cons x)

theorem byRank_sorted (hc : StrictTotal cmp) (L : Lang) : (byRank cmp L).Pairwise (fun a b =>
    Upto cmp (bestOf cmp (underT L [b])) (bestOf cmp (underT L [a])) ∧ (bestOf cmp (underT L [b]) = bestOf cmp (underT L [a]) → a ≤ b)) := by
  unfold byRank
  generalize (fun l => bestOf cmp (underT L [l])) = val
  generalize hb : (fun a b => cmp (bestOf cmp (underT L [b])) (bestOf cmp (underT L [a])) ||
    (decide (bestOf cmp (underT L [b]) = bestOf cmp (underT L [a])) && decide (a ≤ b))) = before
  have hbe : ∀ a b, before a b = true ↔ (cmp (bestOf cmp (underT L [b])) (bestOf cmp (underT L [a])) = true ∨
      bestOf cmp (underT L [b]) = bestOf cmp (underT L [a]) ∧ a ≤ b) := by
    intro a b; rw [← hb]; simp
  have hpw : ∀ l : List UInt8, (l.foldr (place before) []).Pairwise (fun a b => before a b = true) := by
    intro l
    induction l with
    | nil => simp
    | cons x l ih =>
      rw [List.foldr_cons]
      refine place_sorted ?_ ?_ x ih
      · intro a b c h1 h2
        rw [hbe] at h1 h2 ⊢
        rcases h1 with h1 | ⟨h1, h1'⟩
        · rcases h2 with h2 | ⟨h2, h2'⟩
          · exact .inl (StrictTotal.trans hc h2 h1)
          · rw [h2]; exact .inl h1
        · rcases h2 with h2 | ⟨h2, h2'⟩
          · rw [← h1]; exact .inl h2
          · exact .inr ⟨h2.trans h1, UInt8.le_trans h1' h2'⟩
      · intro a b h
        rw [hbe]
        have h' : ¬ before a b = true := by simp [h]
        rw [hbe] at h'
        by_cases heq : bestOf cmp (underT L [a]) = bestOf cmp (underT L [b])
        · refine .inr ⟨heq, ?_⟩
          rcases UInt8.le_total a b with hab | hab
          · exact absurd (.inr ⟨heq.symm, hab⟩) h'
          · exact hab
        · rcases hc.total _ _ heq with h1 | h1
          · exact .inl h1
          · exact absurd (.inl h1) h'
  refine (hpw _).imp ?_
  intro a b h
  rw [hbe] at h
  rcases h with h | ⟨h, h'⟩
  · refine ⟨.inr h, fun heq => ?_⟩
    have := hc.asymm _ _ h
    rw [heq] at this h
    rw [this] at h; cases h
  · exact ⟨.inl h, fun _ => h'⟩

/-- The order of the transitions in the guide. -/
theorem rord_byRank (hs : StableSort sorter) (hc : StrictTotal cmp) (V : View D At kid clean) {u L} (h : At u L) : rord D sorter cmp L = byRank cmp L := by
  have hp := rord_perm (cmp := cmp) hs.perm V h
  have h1 : (rord D sorter cmp L).Pairwise (fun a b => Upto cmp (bestOf cmp (underT L [b])) (bestOf cmp (underT L [a])) ∧
      (bestOf cmp (underT L [b]) = bestOf cmp (underT L [a]) → a ≤ b)) := by
    refine (rord_sorted hs hc V h).imp_of_mem ?_
    intro a b ha hb hab
    rw [mkLink_best hs hc V h (hp.mem_iff.1 ha), mkLink_best hs hc V h (hp.mem_iff.1 hb)] at hab
    exact hab
  refine (hp.trans (byRank_perm L).symm).eq_of_pairwise ?_ h1 (byRank_sorted hc L)
  intro a b _ _ hab hba
  have heq := Upto.antisymm hc hab.1 hba.1
  exact UInt8.le_antisymm (hab.2 heq) (hba.2 heq.symm)

/-- The states with a certain value only. -/
theorem View.equal (V : View D At kid clean) (w : Nat) : View D (fun u L => At u L ∧ ∀ e ∈ L, e.2 = w) kid clean where
  func h h' := V.func h.1 h'.1
  lt h := V.lt h.1
  ne h := V.ne h.1
  nul h := V.nul h.1
  shape h := V.shape h.1
  hasValue h := V.hasValue h.1
  value h := V.value h.1
  fwc l h := V.fwc l h.1
  follow h := V.follow h.1
  step h hl := ⟨V.step h.1 hl, fun e he => by have := h.2 _ (residual_depth he); exact this⟩
  miss h := V.miss h.1
  kid_lt h := V.kid_lt h.1
  kid_ne h := V.kid_ne h.1
  leaf h := V.leaf h.1
  uniq h h' := V.uniq h.1 h'.1
  mult := V.mult
  total h := V.total h.1

/-- When all values are equal, the order is that of the bytes. -/
theorem byRank_arcs (hc : StrictTotal cmp) (V : View D At kid clean) {u L} (h : At u L) {w : Nat} (hw : ∀ e ∈ L, e.2 = w) : byRank cmp L = arcs L := by
  have hu : ∀ l ∈ arcs L, bestOf cmp (underT L [l]) = w := by
    intro l hl
    have hne : underT L [l] ≠ [] := by
      rcases mem_arcs.1 hl with ⟨rfl, v, hv⟩ | hh
      · rw [underT_zero, V.here_eq h hv]; simp
      · rw [underT_one L (V.heads_ne_zero h hh)]
        simpa using mem_heads.1 hh
    obtain ⟨e, he, h2⟩ := (bestOf_spec hc hne).1
    have : e ∈ L := by
      rw [← underT_arcs V h]
      unfold underT at he ⊢
      simp only [List.flatMap_cons, List.flatMap_nil, List.append_nil] at he
      exact List.mem_flatMap.2 ⟨l, hl, he⟩
    rw [← h2, hw e this]
  have hs : (arcs L).Pairwise (fun a b => a < b) := by
    unfold arcs
    have hh : (heads L).Pairwise (fun a b => a < b) := by
      unfold heads
      refine List.Pairwise.filter _ ?_
      rw [List.pairwise_map]
      refine List.pairwise_lt_range.imp_of_mem ?_
      intro a b ha hb hab
      rw [List.mem_range] at ha hb
      rw [UInt8.lt_iff_toNat_lt]
      simp [UInt8.toNat_ofNat']
      omega
    split
    · rw [List.singleton_append, List.pairwise_cons]
      refine ⟨fun l hl => ?_, hh⟩
      have := V.heads_ne_zero h hl
      rw [UInt8.lt_iff_toNat_lt]
      have h1 : l.toNat ≠ 0 := fun hc => this (by rw [← UInt8.toNat_inj]; exact hc)
      show 0 < _
      omega
    · exact hh
  refine (byRank_perm L).eq_of_pairwise (le := fun a b => a ≤ b) (fun a b _ _ h1 h2 => UInt8.le_antisymm h1 h2) ?_ (hs.imp UInt8.le_of_lt)
  refine (byRank_sorted hc L).imp_of_mem ?_
  intro a b ha hb hab
  exact hab.2 (by rw [hu a ((byRank_perm L).mem_iff.1 ha), hu b ((byRank_perm L).mem_iff.1 hb)])

end
end Dawg.Guided
