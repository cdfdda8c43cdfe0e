/-
The calls of a scheme are determined by the mesh and the stencil, and the share of a cell is linear in the fluxes.
-/
import Verif.Props.Flux
import Verif.Lemmas.LinScheme

namespace Samurai

variable {K U V : Type} [Field K] [AddCommGroup U] [Module K U] [AddCommGroup V] [Module K V]

/-! ### the output depends on the mesh and on the fluxes only -/

theorem cellIs_unique {n : Nat} {ref : CA} (hw : ref.WF n) {l : Nat} {p : List Int} {a b : MCell} (ha : CellIs n ref l p a) (hb : CellIs n ref l p b) : a = b := by
  obtain ⟨a1, a2, a3⟩ := ha
  obtain ⟨b1, b2, b3⟩ := hb
  have e3 : a.index = b.index := CA.number_unique hw a3 b3
  have e := a2.trans b2.symm
  unfold MCell.pt at e
  obtain ⟨e1, e2⟩ := snoc_inj e
  cases a; cases b
  simp only at *
  subst e1 e2 e3 a1 b1
  rfl

theorem cellsIs_unique {n : Nat} {ref : CA} (hw : ref.WF n) {l : Nat} {S : List (Nat → Int)} {p : List Int} : ∀ {a b : List MCell},
    List.Forall₂ (fun s m => CellIs n ref l (shiftPoint s n p) m) S a → List.Forall₂ (fun s m => CellIs n ref l (shiftPoint s n p) m) S b → a = b := by
  intro a b ha
  induction ha generalizing b with
  | nil => intro hb; cases hb; rfl
  | cons h1 _ ih =>
    intro hb
    cases hb with
    | cons h2 hb => rw [cellIs_unique hw h1 h2, ih hb]

theorem faceAt_unique {n : Nat} {dir : Nat → Int} {a b : Nat × List Int} {q q' : List Int} (h : FaceAt n dir a b q) (h' : FaceAt n dir a b q') : q = q' := by
  obtain ⟨h1, h2⟩ := h
  obtain ⟨h3, h4⟩ := h'
  by_cases hab : a.1 ≤ b.1
  · rw [show max a.1 b.1 - b.1 = 0 by omega] at h2 h4
    exact shift_inj ((anc_zero.1 h2).symm.trans (anc_zero.1 h4))
  · rw [show max a.1 b.1 - a.1 = 0 by omega] at h1 h3
    exact (anc_zero.1 h1).symm.trans (anc_zero.1 h3)

theorem face_unique {n : Nat} {ref : CA} (hw : ref.WF n) {dir : Nat → Int} {S : List (Nat → Int)} {f f' : FaceCall} (h : f.Right n ref dir S) (h' : f'.Right n ref dir S)
    (he : f.ends = f'.ends) : f = f' := by
  obtain ⟨a1, a2, q, a3, a4⟩ := h
  obtain ⟨b1, b2, q', b3, b4⟩ := h'
  unfold FaceCall.ends at he
  injection he with e1 e2
  have l1 := e1
  have l2 := e2
  unfold MCell.id at l1 l2
  injection l1 with l1 p1
  injection l2 with l2 p2
  rw [l1, p1] at a1
  rw [l2, p2] at a2
  rw [e1, e2] at a3
  rw [l1, l2] at a4
  have := faceAt_unique a3 b3
  subst this
  cases f; cases f'
  simp only at *
  rw [cellIs_unique hw a1 b1, cellIs_unique hw a2 b2, cellsIs_unique hw a4 b4]

theorem perm_of_map {α β : Type} {g : α → β} {a b : List α} (h : (a.map g).Perm (b.map g)) (hn : (a.map g).Nodup) (hg : ∀ x ∈ a, ∀ y ∈ b, g x = g y → x = y) :
    a.Perm b := by
  have ha := hn.of_map
  have hb := (h.nodup_iff.1 hn).of_map
  refine (List.perm_ext_iff_of_nodup ha hb).2 fun x => ⟨fun hx => ?_, fun hx => ?_⟩
  · obtain ⟨y, hy, he⟩ := List.mem_map.1 (h.mem_iff.1 (List.mem_map.2 ⟨x, hx, rfl⟩))
    rw [hg x hx y hy he.symm]
    exact hy
  · obtain ⟨y, hy, he⟩ := List.mem_map.1 (h.mem_iff.2 (List.mem_map.2 ⟨x, hx, rfl⟩))
    rw [← hg y hy x hx he]
    exact hy

theorem bdry_unique {n : Nat} {ref : CA} (hw : ref.WF n) {S : List (Nat → Int)} {base : List Int → List Int} {f f' : BdryCall}
    (h : CellIs n ref f.cell.level f.cell.pt f.cell ∧ List.Forall₂ (fun s c => CellIs n ref f.cell.level (shiftPoint s n (base f.cell.pt)) c) S f.comput)
    (h' : CellIs n ref f'.cell.level f'.cell.pt f'.cell ∧ List.Forall₂ (fun s c => CellIs n ref f'.cell.level (shiftPoint s n (base f'.cell.pt)) c) S f'.comput)
    (he : f.cell.id = f'.cell.id) : f = f' := by
  unfold MCell.id at he
  injection he with l1 p1
  rw [l1, p1] at h
  cases f; cases f'
  simp only at *
  rw [cellIs_unique hw h.1 h'.1, cellsIs_unique hw h.2 h'.2]

/-- The calls of C64 are determined, arguments included, up to their order. -/
theorem SchemeCalls.perm {n : Nat} {ref cells : CA} {dom : LCA} {maxL : Nat} {S : Nat → List (Nat → Int)} {fs fs' : Nat → List FaceCall}
    {bs bs' cs cs' : Nat → List BdryCall} (hw : ref.WF n) (h : SchemeCalls n ref cells dom maxL S fs bs bs') (h' : SchemeCalls n ref cells dom maxL S fs' cs cs')
    {d : Nat} (hd : d ≤ n) : (fs d).Perm (fs' d) ∧ (bs d).Perm (cs d) ∧ (bs' d).Perm (cs' d) := by
  obtain ⟨p1, p2, p3⟩ := h.unique h' hd
  obtain ⟨a1, a2, a3⟩ := h d hd
  obtain ⟨b1, b2, b3⟩ := h' d hd
  exact ⟨perm_of_map p1 a1.nodup fun x hx y hy he => face_unique hw (a1.right x hx) (b1.right y hy) he,
    perm_of_map p2 a2.nodup fun x hx y hy he => bdry_unique (S := S d) (base := id) hw (a2.right x hx) (b2.right y hy) he,
    perm_of_map p3 a3.nodup fun x hx y hy he => bdry_unique hw (a3.right x hx) (b3.right y hy) he⟩

theorem dirShare_perm {n : Nat} {h0 : K} {F : List MCell → V × V} {bdry : Bool} {fs fs' : List FaceCall} {bs bs' cs cs' : List BdryCall}
    (h1 : fs.Perm fs') (h2 : bs.Perm cs) (h3 : bs'.Perm cs') (c : Nat × List Int) :
    dirShare n h0 F bdry fs bs bs' c = dirShare n h0 F bdry fs' cs cs' c := by
  unfold dirShare
  rw [(h1.map _).sum_eq, (h2.map _).sum_eq, (h3.map _).sum_eq]

/-! ### linearity -/

theorem linValue_add (u v : Int → U) (s : K) (A : List (U →ₗ[K] V)) : ∀ C : List MCell,
    linValue (fun i => u i + s • v i) A C = linValue u A C + s • linValue v A C := by
  induction A with
  | nil => intro C; simp [linValue]
  | cons a A ih =>
    intro C
    cases C with
    | nil => simp [linValue]
    | cons m C =>
      show a (u m.index + s • v m.index) + linValue _ A C = (a (u m.index) + linValue u A C) + s • (a (v m.index) + linValue v A C)
      rw [ih, map_add, map_smul, smul_add]
      abel

theorem dirShare_add {n : Nat} {h0 : K} {F G H : List MCell → V × V} (s : K) (h1 : ∀ c, (F c).1 = (G c).1 + s • (H c).1) (h2 : ∀ c, (F c).2 = (G c).2 + s • (H c).2)
    (bdry : Bool) (fs : List FaceCall) (bs bs' : List BdryCall) (c : Nat × List Int) :
    dirShare n h0 F bdry fs bs bs' c = dirShare n h0 G bdry fs bs bs' c + s • dirShare n h0 H bdry fs bs bs' c := by
  have key : ∀ (p : Prop) [Decidable p] (x : K) (a b : V), (if p then x • (a + s • b) else 0) = (if p then x • a else 0) + s • if p then x • b else 0 := by
    intro p _ x a b
    by_cases hp : p
    · simp only [if_pos hp]; rw [smul_add, smul_comm]
    · simp only [if_neg hp, smul_zero, add_zero]
  unfold dirShare
  have e1 : (fs.map fun f => faceShare n h0 F c f).sum = (fs.map fun f => faceShare n h0 G c f).sum + s • (fs.map fun f => faceShare n h0 H c f).sum := by
    rw [← sum_map_smul, ← sum_map_add']
    refine sum_map_congr fun f _ => ?_
    unfold faceShare
    rw [h1, h2, key, key, smul_add]
    abel
  rw [e1]
  cases bdry with
  | false => simp only [Bool.false_eq_true, if_false, add_zero]
  | true =>
    simp only [if_true]
    have e2 : (bs.map fun f => if f.cell.id = c then bdryShare n h0 (fun x => (F x).1) f else 0).sum =
        (bs.map fun f => if f.cell.id = c then bdryShare n h0 (fun x => (G x).1) f else 0).sum +
          s • (bs.map fun f => if f.cell.id = c then bdryShare n h0 (fun x => (H x).1) f else 0).sum := by
      rw [← sum_map_smul, ← sum_map_add']
      refine sum_map_congr fun f _ => ?_
      unfold bdryShare
      simp only []
      rw [h1, key]
    have e3 : (bs'.map fun f => if f.cell.id = c then bdryShare n h0 (fun x => (F x).2) f else 0).sum =
        (bs'.map fun f => if f.cell.id = c then bdryShare n h0 (fun x => (G x).2) f else 0).sum +
          s • (bs'.map fun f => if f.cell.id = c then bdryShare n h0 (fun x => (H x).2) f else 0).sum := by
      rw [← sum_map_smul, ← sum_map_add']
      refine sum_map_congr fun f _ => ?_
      unfold bdryShare
      simp only []
      rw [h2, key]
    rw [e2, e3, smul_add, smul_add]
    abel

end Samurai
