/-
Concrete cases for the exchanges between processes (C114, C115), and fields with several components.
-/
import Verif.Props.Mpi
import Verif.Props.PetscExample

namespace Samurai

/-! ### two processes -/

/-- Cells of level 1 and of level 2 of a line. -/
def pieceCalls (a b c d : Int) : List (Nat × CellCall) := [(1, .interval [] (.mk' a b)), (2, .interval [] (.mk' c d))]

def pieceList (a b c d : Int) : CA := match runLevelCalls 0 3 (pieceCalls a b c d) with
  | some cl => CA.ofCL cl
  | none => CA.empty 0 3

/-- The same with the numbers of the cells. -/
def pieceMesh (a b c d : Int) : CA := (updateIndexCA 0 (pieceList a b c d)).getD (pieceList a b c d)

theorem pieceMesh_spec {a b c d : Int} (h : a < b ∧ c < d) : (pieceMesh a b c d).maxSize = 3 ∧ (pieceMesh a b c d).WF 0 ∧ (pieceMesh a b c d).Leveled ∧
    (pieceMesh a b c d).NumbersDiffer 0 ∧ ∀ l p, (pieceMesh a b c d).Mem 0 l p ↔ ∃ x : Int, p = [x] ∧ ((l = 1 ∧ a ≤ x ∧ x < b) ∨ (l = 2 ∧ c ≤ x ∧ x < d)) := by
  obtain ⟨cl, h1, h2⟩ := (hist_new 0 3).calls (k := pieceCalls a b c d) (by
    simp [pieceCalls, CellCall.idx, CellCall.Valid, Interval.mk', h.1, h.2])
  have he : pieceList a b c d = CA.ofCL cl := by
    unfold pieceList runLevelCalls
    rw [h1]
  obtain ⟨a1, a2, a3, -, a5⟩ := h2.array
  rw [← he] at a1 a2 a3 a5
  obtain ⟨c', g1, g2, g3, g4, g5, g6⟩ := C08_levels 0 _ a2
  have hm : pieceMesh a b c d = c' := by unfold pieceMesh; rw [g1]; rfl
  rw [hm]
  refine ⟨g2.trans a1, g3, updateIndexCA_leveled a2 a3 g1, ?_, fun l p => ?_⟩
  · unfold CA.NumbersDiffer
    rw [g6]
    refine (List.nodup_map_iff ?_).2 List.nodup_range
    intro a b hab
    simpa using hab
  · rw [g4, a5]
    simp only [pieceCalls, List.mem_cons, Prod.mk.injEq, List.not_mem_nil, or_false, false_or]
    constructor
    · rintro ⟨e, he, ha⟩
      rcases he with ⟨rfl, rfl⟩ | ⟨rfl, rfl⟩ <;> obtain ⟨x, x1, x2, rfl⟩ := ha <;> simp only [Interval.mk'] at x1 x2
      · exact ⟨x, rfl, .inl ⟨rfl, x1, x2⟩⟩
      · exact ⟨x, rfl, .inr ⟨rfl, x1, x2⟩⟩
    · rintro ⟨x, rfl, ⟨rfl, x1, x2⟩ | ⟨rfl, x1, x2⟩⟩
      · exact ⟨_, .inl ⟨rfl, rfl⟩, x, x1, x2, rfl⟩
      · exact ⟨_, .inr ⟨rfl, rfl⟩, x, x1, x2, rfl⟩

/-- A part of a line at level 2. -/
def pieceSub (a b : Int) : LCA := LCA.ofBox 0 2 ⟨fun _ => a, fun _ => b⟩

theorem pieceSub_mem {a b : Int} (p : List Int) : (pieceSub a b).Mem 0 p ↔ ∃ x, p = [x] ∧ a ≤ x ∧ x < b := by
  unfold pieceSub
  rw [ofBox_mem]
  match p with
  | [] => simp [InBox]
  | [x] => simp [InBox]
  | x :: y :: p => simp [InBox]

/-- Two processes: the leaves of level 2 are shared between them, each has one layer of ghosts at level 2, and the cells of level 1 below its leaves.
The cell 1 of level 1 is across the border. -/
def twoPieces (p : Nat) : MpiMesh := if p = 0 then ⟨pieceMesh 0 2 0 4, pieceSub 0 3⟩ else ⟨pieceMesh 1 3 2 6, pieceSub 3 6⟩

theorem twoPieces_ok : MpiMeshes 0 2 twoPieces := by
  have k0 := pieceMesh_spec (a := 0) (b := 2) (c := 0) (d := 4) (by omega)
  have k1 := pieceMesh_spec (a := 1) (b := 3) (c := 2) (d := 6) (by omega)
  have two : ∀ P : Nat → Prop, P 0 → P 1 → ∀ p < 2, P p := fun P h0 h1 p hp => by
    obtain rfl | rfl : p = 0 ∨ p = 1 := by omega
    · exact h0
    · exact h1
  have sub : ∀ a b : Int, b ≤ 6 → (pieceSub a b).level ≤ 3 ∧ (pieceSub a b).BelowAt 0 3 100 := by
    intro a b hb
    have hlev : (pieceSub a b).level = 2 := (ofBox_spec _ 0 2).2.2
    refine ⟨by rw [hlev]; omega, fun p hp x hx => ?_⟩
    obtain ⟨y, rfl, y1, y2⟩ := (pieceSub_mem p).1 hp
    obtain rfl : x = y := by simpa using hx
    rw [hlev]
    norm_num
    omega
  have refs : ∀ a b c d : Int, a < b → c < d → b ≤ 3 → d ≤ 6 → ∀ l ≤ (pieceMesh a b c d).maxSize, l ≤ 3 ∧ ((pieceMesh a b c d).lca l).BelowAt 0 3 100 := by
    intro a b c d h1 h2 h3 h4 l hl
    obtain ⟨m1, m2, m3, m4, m5⟩ := pieceMesh_spec ⟨h1, h2⟩
    refine ⟨by omega, fun p hp x hx => ?_⟩
    obtain ⟨y, rfl, y1⟩ := (m5 l p).1 ⟨hl, hp⟩
    obtain rfl : x = y := by simpa using hx
    rw [m3 l hl]
    rcases y1 with ⟨rfl, y1, y2⟩ | ⟨rfl, y1, y2⟩ <;> norm_num <;> omega
  refine ⟨two _ k0.2.1 k1.2.1, two _ k0.2.2.1 k1.2.2.1, two _ k0.2.2.2.1 k1.2.2.2.1, ?_, 3, 100, by omega, by norm_num [INT_MAX], ?_, ?_⟩
  · exact two (fun p => (twoPieces p).sub.WF 0) (ofBox_wf 2 fun d hd => by norm_num) (ofBox_wf 2 fun d hd => by norm_num)
  · exact two (fun p => (twoPieces p).sub.level ≤ 3 ∧ (twoPieces p).sub.BelowAt 0 3 100) (sub 0 3 (by omega)) (sub 3 6 (by omega))
  · exact two (fun p => ∀ l ≤ (twoPieces p).ref.maxSize, l ≤ 3 ∧ ((twoPieces p).ref.lca l).BelowAt 0 3 100)
      (refs 0 2 0 4 (by omega) (by omega) (by omega) (by omega)) (refs 1 3 2 6 (by omega) (by omega) (by omega) (by omega))

/-- The values at the beginning; the copies of the meshes are not up to date. -/
def twoStart (p : Nat) : MpiLocal Int := ⟨twoPieces p, fun _ => ⟨CA.empty 0 3, pieceSub 0 1⟩, fun i k => 100 * ((p : Int) + 1) + 10 * i + (k : Int)⟩

theorem twoPieces_owns (l : Nat) (hl : l = 1 ∨ l = 2) (x : Int) (p : Nat) : (twoPieces p).Owns 0 l [x] ↔
    ∃ y, (if p = 0 then (0 ≤ y ∧ y < 3) else (3 ≤ y ∧ y < 6)) ∧ (if l = 1 then y / 2 = x else y = x) := by
  have hlev : ∀ a b : Int, (pieceSub a b).level = 2 := fun a b => (ofBox_spec _ 0 2).2.2
  have hs : ∀ a b : Int, AtLevel (pieceSub a b).level l ((pieceSub a b).Mem 0) [x] ↔ ∃ y, (a ≤ y ∧ y < b) ∧ (if l = 1 then y / 2 = x else y = x) := by
    intro a b
    rw [hlev]
    rcases hl with rfl | rfl
    · rw [show (1 : Nat) = 2 - 1 from rfl, atLevel_up (by omega)]
      constructor
      · rintro ⟨q, h1, h2⟩
        obtain ⟨y, rfl, y1⟩ := (pieceSub_mem q).1 h1
        refine ⟨y, y1, ?_⟩
        have := anc_iff.1 h2
        simp only [List.map_cons, List.map_nil, List.cons.injEq, and_true] at this
        rw [shr_one_eq] at this
        simpa using this.symm
      · rintro ⟨y, y1, y2⟩
        refine ⟨[y], (pieceSub_mem _).2 ⟨y, rfl, y1⟩, anc_iff.2 ?_⟩
        simp only [List.map_cons, List.map_nil, shr_one_eq]
        simp at y2
        rw [y2]
    · rw [atLevel_self]
      rw [pieceSub_mem]
      constructor
      · rintro ⟨y, h1, h2⟩
        exact ⟨y, h2, by simpa using h1.symm⟩
      · rintro ⟨y, h1, h2⟩
        exact ⟨y, by simp at h2; rw [h2], h1⟩
  unfold MpiMesh.Owns twoPieces
  by_cases hp : p = 0
  · simp only [if_pos hp]; exact hs 0 3
  · simp only [if_neg hp]; exact hs 3 6

/-- C114_ghosts and C115_tags for two processes: process 1 gets the ghost 2 of level 2 from process 0. -/
example : MpiMeshes 0 2 twoPieces ∧ (∀ p < 2, 2 ≤ (twoPieces p).ref.maxSize) ∧ (∀ p < 2, (twoStart p).mesh = twoPieces p) ∧
    (twoPieces 0).ref.Mem 0 2 [2] ∧ (twoPieces 0).Owns 0 2 [2] ∧ ¬ (twoPieces 1).Owns 0 2 [2] ∧ (twoStart 0).Has 0 2 [2] 0 140 ∧ (twoStart 1).Has 0 2 [2] 0 220 := by
  have k0 := pieceMesh_spec (a := 0) (b := 2) (c := 0) (d := 4) (by omega)
  have k1 := pieceMesh_spec (a := 1) (b := 3) (c := 2) (d := 6) (by omega)
  refine ⟨twoPieces_ok, fun p hp => ?_, fun p hp => rfl, (k0.2.2.2.2 _ _).2 ⟨2, rfl, .inr ⟨rfl, by omega, by omega⟩⟩,
    (twoPieces_owns 2 (.inr rfl) 2 0).2 ⟨2, by simp, by simp⟩, fun hc => ?_, ⟨4, by decide +kernel, by decide⟩, ⟨2, by decide +kernel, by decide⟩⟩
  · obtain rfl | rfl : p = 0 ∨ p = 1 := by omega
    · show 2 ≤ (pieceMesh 0 2 0 4).maxSize
      rw [k0.1]; omega
    · show 2 ≤ (pieceMesh 1 3 2 6).maxSize
      rw [k1.1]; omega
  · obtain ⟨y, h1, h2⟩ := (twoPieces_owns 2 (.inr rfl) 2 1).1 hc
    simp at h1 h2
    omega

/-- C114_shared_cell for the cell 1 of level 1. -/
example : (twoPieces 0).Owns 0 1 [1] ∧ (twoPieces 1).Owns 0 1 [1] ∧ (twoStart 0).Has 0 1 [1] 0 110 ∧ (twoStart 1).Has 0 1 [1] 0 200 :=
  ⟨(twoPieces_owns 1 (.inl rfl) 1 0).2 ⟨2, by simp, by simp⟩, (twoPieces_owns 1 (.inl rfl) 1 1).2 ⟨3, by simp, by simp⟩,
    ⟨1, by decide +kernel, by decide⟩, ⟨0, by decide +kernel, by decide⟩⟩

/-! ### several components -/

/-- The memories after a round done together. -/
def nextState {σ μ : Type} (R : MpiRound σ μ) (s : Nat → σ) (p : Nat) : Option σ :=
  (R.peers p (s p)).foldlM (fun a q => (R.payload q p (s q)).bind fun m => R.use p q m a) (s p)

theorem together_next {σ μ : Type} [Inhabited μ] {size : Nat} {R : MpiRound σ μ} {s : Nat → σ} (hw : ∀ p < size, R.work p (s p) = some (s p))
    (hn : ∀ p < size, (R.peers p (s p)).Nodup) (hp : ∀ p < size, ∀ q ∈ R.peers p (s p), q < size ∧ p ∈ R.peers q (s q))
    (hm : ∀ p < size, ∀ q ∈ R.peers p (s p), (R.payload p q (s p)).isSome = true) (hs : ∀ p < size, (nextState R s p).isSome = true) :
    ∃ M, TogetherRound size R s s M fun p => (nextState R s p).getD (s p) := by
  refine ⟨fun p q => (R.payload p q (s p)).getD default, hw, hn, fun p h q hq => (hp p h q hq).1, fun p h q _ hq => (hp p h q hq).2, fun p h q hq => ?_, fun p h => ?_⟩
  · obtain ⟨m, hm⟩ := Option.isSome_iff_exists.1 (hm p h q hq)
    rw [hm]; rfl
  · obtain ⟨a, ha⟩ := Option.isSome_iff_exists.1 (hs p h)
    simp only [ha, Option.getD_some]
    rw [← ha]
    unfold nextState
    have key : ∀ (qs : List Nat), (∀ q ∈ qs, (R.payload q p (s q)).isSome = true) → ∀ a,
        qs.foldlM (fun a q => R.use p q ((R.payload q p (s q)).getD default) a) a = qs.foldlM (fun a q => (R.payload q p (s q)).bind fun m => R.use p q m a) a := by
      intro qs
      induction qs with
      | nil => intro _ a; rfl
      | cons q qs ih =>
        intro hq a
        obtain ⟨m, hm⟩ := Option.isSome_iff_exists.1 (hq q List.mem_cons_self)
        rw [List.foldlM_cons, List.foldlM_cons, hm]
        simp only [Option.getD_some, Option.bind_some]
        cases R.use p q m a with
        | none => rfl
        | some b => exact ih (fun q' h => hq q' (List.mem_cons_of_mem _ h)) b
    exact key _ (fun q hq => hm q (hp p h q hq).1 p (hp p h q hq).2) _

theorem next_mesh {R : MpiRound (MpiLocal Int) (MpiMsg Int)} (h : ∀ p q m a b, R.use p q m a = some b → b.mesh = a.mesh) (s : Nat → MpiLocal Int) (p : Nat) :
    ((nextState R s p).getD (s p)).mesh = (s p).mesh := by
  have key : ∀ (qs : List Nat) (a b : MpiLocal Int), qs.foldlM (fun a q => (R.payload q p (s q)).bind fun m => R.use p q m a) a = some b → b.mesh = a.mesh := by
    intro qs
    induction qs with
    | nil => intro a b h; cases h; rfl
    | cons q qs ih =>
      intro a b hb
      rw [List.foldlM_cons] at hb
      obtain ⟨c, h1, h2⟩ := Option.bind_eq_some_iff.1 hb
      obtain ⟨m, _, h3⟩ := Option.bind_eq_some_iff.1 h1
      rw [ih c b h2, h p q m a c h3]
  cases e : nextState R s p with
  | none => rfl
  | some b => exact key _ _ _ e

theorem recvRows_mesh {n m l : Nat} {comb : Int → Int → Int} {calls : Option (List Call)} {msg : MpiMsg Int} {a b : MpiLocal Int}
    (h : recvRows n m comb l calls msg a = some b) : b.mesh = a.mesh := by
  unfold recvRows at h
  split at h
  · obtain ⟨t, _, rfl⟩ := Option.map_eq_some_iff.1 h
    rfl
  · cases h

instance : Inhabited (MpiMsg Int) := ⟨.values []⟩

/-- C114 does not hold for a field with two components: each process sends the two components of the cells, but the other reads one value for each cell
of the interval and puts it in the first entries of the row. After the exchange, in every execution, the second component of the ghost 2 of process 1 is
still the value of process 1, not the one of process 0. -/
theorem C114_components_refuted :
    (∃ k x, MpiRun 2 true k (MpiSys.start (ghostProgram 0 2 2 2 2) twoStart) x ∧ x.Finished 2) ∧
    ∀ strict k x, MpiRun 2 strict k (MpiSys.start (ghostProgram 0 2 2 2 2) twoStart) x → x.Finished 2 →
      (twoStart 0).Has 0 2 [2] 1 141 ∧ (x.proc 1).loc.mesh = twoPieces 1 ∧ (x.proc 1).loc.Has 0 2 [2] 0 140 ∧ (x.proc 1).loc.Has 0 2 [2] 1 221 := by
  let R1 : MpiRound (MpiLocal Int) (MpiMsg Int) := updateMeshNeighbour 2
  let R2 : MpiRound (MpiLocal Int) (MpiMsg Int) := updateGhostSubdomains 0 2 2 2
  let s1 : Nat → MpiLocal Int := fun p => (nextState R1 twoStart p).getD (twoStart p)
  let s2 : Nat → MpiLocal Int := fun p => (nextState R2 s1 p).getD (s1 p)
  obtain ⟨M1, t1⟩ : ∃ M, TogetherRound 2 R1 twoStart twoStart M s1 :=
    together_next (fun _ _ => rfl) (by decide +kernel) (by decide +kernel) (by decide +kernel) (by decide +kernel)
  obtain ⟨M2, t2⟩ : ∃ M, TogetherRound 2 R2 s1 s1 M s2 :=
    together_next (fun _ _ => rfl) (by decide +kernel) (by decide +kernel) (by decide +kernel) (by decide +kernel)
  have T : Together 2 (ghostProgram 0 2 2 2 2) twoStart s2 := .cons _ _ _ _ _ _ _ t1 (.cons _ _ _ _ _ _ _ t2 (.nil _))
  refine ⟨?_, fun strict k x hr hf => ?_⟩
  · obtain ⟨k, x, h1, _, h2⟩ := (C113_deterministic 2 _ _ _ T).1 true 0 _ (.refl _)
    exact ⟨k, x, h1, h2⟩
  · obtain ⟨N, hN⟩ := C113_exchanges 2 strict _ _ _ T
    rw [((hN k x hr).2.2 hf).1 1 (by omega)]
    have hm : (s2 1).mesh = twoPieces 1 := by
      refine (next_mesh (R := R2) (fun _ _ _ _ _ h => recvRows_mesh h) s1 1).trans (next_mesh (R := R1) (fun _ _ m a b h => ?_) twoStart 1)
      cases m with
      | mesh M => cases h; rfl
      | values l => cases h
    refine ⟨⟨4, by decide +kernel, by decide⟩, hm, ⟨2, by rw [hm]; decide +kernel, by decide +kernel⟩, ⟨2, by rw [hm]; decide +kernel, by decide +kernel⟩⟩

end Samurai
