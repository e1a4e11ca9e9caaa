import Verif.Proof.MergeGraphs
import Verif.Props.Bcsc

/-!
# C99: `merge_graphs`

The model is in Verif/Model/MergeGraphs.lean; `Joined` and `FirstJoined` (Verif/Spec/MergeGraphs.lean) and
`IsBlocked` (Verif/Spec/Bcsc.lean) are the specification vocabulary.
-/

namespace Verif.MergeG
open Res Bcsc

variable {V : Type}

theorem blocked_rows {zero : V} {m : Mat V} (hm : m.WF) {nodes : Nat} {super : List Nat} (hp : PtrOk super nodes m.n)
    {M : Blocked V} (hB : IsBlocked zero m nodes super M.nrows M.p M.i M.x) {s : Nat} (hs : s < nodes) :
    ∃ off, M.p[s]? = some off ∧
      M.nrows[s]? = some (blockRows m.pat (super.getD s 0) (super.getD (s + 1) 0)).length ∧
      ∀ k, k < (blockRows m.pat (super.getD s 0) (super.getD (s + 1) 0)).length →
        M.i[off + k]? = (blockRows m.pat (super.getD s 0) (super.getD (s + 1) 0))[k]? := by
  have hpget : ∀ s, s ≤ nodes → ∃ o, M.p[s]? = some o := by
    intro s
    induction s with
    | zero => intro _; exact ⟨0, hB.first⟩
    | succ s ih =>
      intro hs
      obtain ⟨o, ho⟩ := ih (by omega)
      exact ⟨_, hB.next s (by omega) _ _ o (hp.get (b := s) (by omega)) (hp.get (b := s + 1) (by omega)) ho⟩
  obtain ⟨off, hoff⟩ := hpget s hs.le
  have ha := hp.get (b := s) hs.le
  have hb := hp.get (b := s + 1) hs
  refine ⟨off, hoff, hB.nrows s hs _ _ ha hb, fun k hk => ?_⟩
  have hg : m.pat.WF := hm.pat
  have hlt : super.getD s 0 < super.getD (s + 1) 0 := by
    obtain ⟨r, hr⟩ : ∃ r, r ∈ blockRows m.pat (super.getD s 0) (super.getD (s + 1) 0) :=
      List.exists_mem_of_length_pos (by omega)
    obtain ⟨j, h1, h2, _⟩ := (mem_blockRows hg (hp.dle (b := s + 1) hs)).1 hr
    omega
  have := (hB.entry s hs _ _ off ha hb hoff (super.getD s 0) k _ (Nat.le_refl _) hlt
    (List.getElem?_eq_getElem hk)).1
  rw [Nat.sub_self, Nat.zero_mul, Nat.add_zero] at this
  rw [this, List.getElem?_eq_getElem hk]

theorem rowsAll_eq {n nodes : Nat} {sup : List Nat} (hl : sup.length = n)
    (hs : ∀ v, v < n → sup.getD v 0 < nodes) {M : Blocked V} {j off : Nat} {R : List Nat}
    (h1 : M.p[j]? = some off) (h2 : M.nrows[j]? = some R.length) (h3 : ∀ k, k < R.length → M.i[off + k]? = R[k]?)
    (hR : ∀ r ∈ R, r < n) :
    ∃ L : List Nat, L.Nodup ∧ (∀ t, t ∈ L ↔ ∃ c ∈ R, sup.getD c 0 = t) ∧
      ∀ (σ : Type) (out : Nat → σ → Res σ) (s : σ),
      rowsAll nodes sup M j out (List.replicate nodes false) s =
        (forEach L out s >>= fun s => ok (List.replicate nodes false, s)) := by
  obtain ⟨L, l1, l2, l3⟩ := once_eq (nr := R.length) (ix := M.i) (pos := fun r => off + r) hl hs
    (fun r hr => ⟨R[r], by rw [h3 r hr, List.getElem?_eq_getElem hr], hR _ (List.getElem_mem _)⟩)
  refine ⟨L, l1, fun t => ?_, fun σ out s => ?_⟩
  · rw [l2]
    constructor
    · rintro ⟨r, c, hr, hc, ht⟩
      rw [h3 r hr] at hc
      exact ⟨c, List.mem_of_getElem? hc, ht⟩
    · rintro ⟨c, hc, ht⟩
      obtain ⟨r, hr, rfl⟩ := List.mem_iff_getElem.1 hc
      exact ⟨r, _, hr, by rw [h3 r hr, List.getElem?_eq_getElem hr], ht⟩
  · unfold rowsAll
    have r1 : rd M.nrows j = ok R.length := by unfold rd; rw [h2]
    have r2 : rd M.p j = ok off := by unfold rd; rw [h1]
    rw [r1, ok_bind, r2]
    by_cases c : 0 < R.length
    · rw [if_pos c, ok_bind]; exact l3 σ out s
    · rw [if_neg c, ok_bind, ← l3 σ out s]
      have : R.length = 0 := by omega
      rw [this]; rfl

theorem rowsFirst_eq {n nodes : Nat} {sup : List Nat} (hl : sup.length = n)
    (hs : ∀ v, v < n → sup.getD v 0 < nodes) {M : Blocked V} {j off : Nat} {R : List Nat}
    (h1 : M.p[j]? = some off) (h2 : M.nrows[j]? = some R.length) (h3 : ∀ k, k < R.length → M.i[off + k]? = R[k]?)
    (hR : ∀ r ∈ R, r < n) :
    ∃ L : List Nat, L.Nodup ∧ (∀ t, t ∈ L ↔ ∃ c, R[0]? = some c ∧ sup.getD c 0 = t) ∧
      ∀ (σ : Type) (out : Nat → σ → Res σ) (s : σ),
      rowsFirst nodes sup M j out (List.replicate nodes false) s =
        (forEach L out s >>= fun s => ok (List.replicate nodes false, s)) := by
  have h0 : ∀ r, r < R.length → M.i[off]? = R[0]? := fun r hr => by
    have := h3 0 (by omega)
    rwa [Nat.add_zero] at this
  obtain ⟨L, l1, l2, l3⟩ := once_eq (nr := R.length) (ix := M.i) (pos := fun _ => off) hl hs
    (fun r hr => ⟨R[0], by rw [h0 r hr, List.getElem?_eq_getElem (by omega)], hR _ (List.getElem_mem _)⟩)
  refine ⟨L, l1, fun t => ?_, fun σ out s => ?_⟩
  · rw [l2]
    constructor
    · rintro ⟨r, c, hr, hc, ht⟩
      rw [h0 r hr] at hc
      exact ⟨c, hc, ht⟩
    · rintro ⟨c, hc, ht⟩
      have : 0 < R.length := (List.getElem?_eq_some_iff.1 hc).1
      exact ⟨0, c, this, by rw [h0 0 this, hc], ht⟩
  · unfold rowsFirst
    have r1 : rd M.nrows j = ok R.length := by unfold rd; rw [h2]
    have r2 : rd M.p j = ok off := by unfold rd; rw [h1]
    rw [r1, ok_bind, r2]
    by_cases c : 0 < R.length
    · rw [if_pos c, ok_bind]; exact l3 σ out s
    · rw [if_neg c, ok_bind, ← l3 σ out s]
      have : R.length = 0 := by omega
      rw [this]; rfl

theorem count_eq (l : List Nat) (c : Nat) : forEach l (fun _ (c : Nat) => ok (c + 1)) c = ok (c + l.length) := by
  induction l generalizing c with
  | nil => rfl
  | cons a l ih => simp only [forEach, ok_bind]; rw [ih]; congr 1; simp; omega

/-- The columns of the result from the lists of supernodes. -/
def colsOf (nodes : Nat) (LA LB LC : Nat → List Nat) (c : Nat) : List Nat :=
  if c < nodes then LA c ++ [c + nodes]
  else if c < 2 * nodes then c :: (LB (c - nodes)).map (· + 2 * nodes)
  else (LC (c - 2 * nodes)).map (· + 2 * nodes)

theorem merge_eq {zero : V} {n : Nat} {A C nB : Blocked V} {B : Mat V} {sup : List Nat} (hn : 0 < A.nodes)
    (hnB : generate zero B A.nodes A.super = ok nB) (hsup : supers n A.nodes A.super = ok sup)
    {LA LB LC : Nat → List Nat}
    (hA : ∀ j, j < A.nodes → ∀ (σ : Type) (out : Nat → σ → Res σ) (s : σ),
      rowsAll A.nodes sup A j out (List.replicate A.nodes false) s =
        (forEach (LA j) out s >>= fun s => ok (List.replicate A.nodes false, s)))
    (hB : ∀ j, j < A.nodes → ∀ (σ : Type) (out : Nat → σ → Res σ) (s : σ),
      rowsFirst A.nodes sup nB j out (List.replicate A.nodes false) s =
        (forEach (LB j) out s >>= fun s => ok (List.replicate A.nodes false, s)))
    (hC : ∀ j, j < A.nodes → ∀ (σ : Type) (out : Nat → σ → Res σ) (s : σ),
      rowsAll A.nodes sup C j out (List.replicate A.nodes false) s =
        (forEach (LC j) out s >>= fun s => ok (List.replicate A.nodes false, s))) :
    wp (merge zero n A B C) fun o =>
      (⟨3 * A.nodes, o.1, o.2⟩ : Csc) = Csc.ofFun (3 * A.nodes) (colsOf A.nodes LA LB LC) := by
  obtain ⟨nodes, hnodes⟩ : ∃ k, k = A.nodes := ⟨_, rfl⟩
  obtain ⟨cols, hcols⟩ : ∃ c, c = colsOf nodes LA LB LC := ⟨_, rfl⟩
  have cA : ∀ j, j < nodes → cols j = LA j ++ [j + nodes] := by
    intro j hj; rw [hcols, colsOf, if_pos hj]
  have cB : ∀ j, j < nodes → cols (nodes + j) = (j + nodes) :: (LB j).map (· + 2 * nodes) := by
    intro j hj
    rw [hcols, colsOf, if_neg (by omega), if_pos (by omega), Nat.add_sub_cancel_left, Nat.add_comm nodes j]
  have cC : ∀ j, j < nodes → cols (2 * nodes + j) = (LC j).map (· + 2 * nodes) := by
    intro j hj
    rw [hcols, colsOf, if_neg (by omega), if_neg (by omega), Nat.add_sub_cancel_left]
  unfold merge
  dsimp only
  rw [hnB, ok_bind, hsup, ok_bind]
  rw [← hnodes] at hA hB hC hn ⊢
  rw [← hcols]
  -- the counts
  rw [wp_bind]
  refine forRange_wp' (fun k (st : List Bool × Nat) => st = (List.replicate nodes false, (flat cols k).length))
    (Nat.zero_le _) rfl ?_ ?_
  · rintro k st _ hk rfl
    dsimp only
    rw [hA k hk, count_eq, ok_bind, ok_bind, wp_ok]
    rw [flat_succ, cA k hk]
    simp; omega
  rintro st rfl
  rw [wp_bind]
  refine forRange_wp' (fun k (st : List Bool × Nat) =>
    st = (List.replicate nodes false, (flat cols (nodes + k)).length))
    (Nat.zero_le _) rfl ?_ ?_
  · rintro k st _ hk rfl
    dsimp only
    rw [hB k hk, count_eq, ok_bind, ok_bind, wp_ok]
    rw [← Nat.add_assoc, flat_succ, cB k hk]
    simp; omega
  rintro st rfl
  rw [wp_bind]
  refine forRange_wp' (fun k (st : List Bool × Nat) =>
    st = (List.replicate nodes false, (flat cols (2 * nodes + k)).length))
    (Nat.zero_le _) (by rw [Nat.two_mul]; rfl) ?_ ?_
  · rintro k st _ hk rfl
    dsimp only
    rw [hC k hk, count_eq, ok_bind, wp_ok]
    rw [← Nat.add_assoc, flat_succ, cC k hk]
    simp
  rintro st rfl
  dsimp only
  have e3 : 2 * nodes + nodes = 3 * nodes := by omega
  rw [e3, Sp.newPtrLen, if_neg (by omega), wr_eq (by simp), ok_bind]
  -- the first kernel
  rw [wp_bind]
  refine forRange_wp' (fun k (o : List Bool × Out) => o.1 = List.replicate nodes false ∧
    Done (3 * nodes) cols k o.2) (Nat.zero_le _) ⟨rfl, ?_⟩ ?_ ?_
  · refine ⟨by simp, by simp, fun k hk => ?_, rfl, rfl⟩
    rw [Nat.le_zero.1 hk]
    simp [flat]
  · rintro j ⟨ip, o⟩ _ hj ⟨rfl, ho⟩
    dsimp only at ho ⊢
    rw [wp_bind]
    refine wp_mono (startCol_wp (by omega) ho) fun o1 h1 => ?_
    rw [hA j hj, wp_bind, wp_bind]
    refine wp_mono (pushes_wp (f := fun r => r) (r := [j + nodes]) (by omega) (by rw [cA j hj]; simp) h1)
      fun o2 h2 => ?_
    rw [wp_ok, wp_bind]
    refine wp_mono (push_wp (v := j + nodes) (r := []) (by omega) (by rw [cA j hj]; simp) h2) fun o3 h3 => ?_
    rw [wp_ok]
    refine ⟨rfl, Mid.done ?_⟩
    rw [cA j hj]
    simpa using h3
  rintro ⟨ip, o⟩ ⟨rfl, ho⟩
  dsimp only at ho ⊢
  -- the second kernel
  rw [wp_bind]
  refine forRange_wp' (fun k (o : List Bool × Out) => o.1 = List.replicate nodes false ∧
    Done (3 * nodes) cols (nodes + k) o.2) (Nat.zero_le _) ⟨rfl, ho⟩ ?_ ?_
  · rintro j ⟨ip, o⟩ _ hj ⟨rfl, ho⟩
    dsimp only at ho ⊢
    rw [wp_bind]
    refine wp_mono (startCol_wp (by omega) ho) fun o1 h1 => ?_
    rw [wp_bind]
    refine wp_mono (push_wp (v := j + nodes) (r := (LB j).map (· + 2 * nodes)) (by omega)
      (by rw [cB j hj]; simp) h1) fun o2 h2 => ?_
    rw [hB j hj, wp_bind]
    refine wp_mono (pushes_wp (f := fun r => r + 2 * nodes) (r := []) (by omega) (by rw [cB j hj]; simp) h2)
      fun o3 h3 => ?_
    rw [wp_ok]
    refine ⟨rfl, Mid.done (c := nodes + j) (o := o3) ?_⟩
    rw [cB j hj]
    simpa using h3
  rintro ⟨ip, o⟩ ⟨rfl, ho⟩
  dsimp only at ho ⊢
  -- the third kernel
  rw [wp_bind]
  refine forRange_wp' (fun k (o : List Bool × Out) => o.1 = List.replicate nodes false ∧
    Done (3 * nodes) cols (2 * nodes + k) o.2) (Nat.zero_le _) ⟨rfl, by rw [Nat.two_mul]; exact ho⟩ ?_ ?_
  · rintro j ⟨ip, o⟩ _ hj ⟨rfl, ho⟩
    dsimp only at ho ⊢
    rw [wp_bind]
    refine wp_mono (startCol_wp (by omega) ho) fun o1 h1 => ?_
    rw [hC j hj, wp_bind]
    refine wp_mono (pushes_wp (f := fun r => r + 2 * nodes) (r := []) (by omega) (by rw [cC j hj]; simp) h1)
      fun o3 h3 => ?_
    rw [wp_ok]
    refine ⟨rfl, Mid.done (c := 2 * nodes + j) (o := o3) ?_⟩
    rw [cC j hj]
    simpa using h3
  rintro ⟨ip, o⟩ ⟨_, ho⟩
  dsimp only at ho ⊢
  rw [wp_ok]
  rw [e3] at ho
  exact ho.eq

theorem head_iff {g : Csc} (hg : g.WF) {nodes : Nat} {super : List Nat} (hp : PtrOk super nodes g.n) {s t : Nat}
    (hs : s < nodes) (ht : t < nodes) {sup : List Nat} (hblk : ∀ v t, t < nodes →
      super.getD t 0 ≤ v → v < super.getD (t + 1) 0 → sup.getD v 0 = t) :
    (∃ c, (blockRows g (super.getD s 0) (super.getD (s + 1) 0))[0]? = some c ∧ sup.getD c 0 = t) ↔
      FirstJoined g super s t := by
  have hb := hp.dle (b := s + 1) hs
  have hlt : ∀ {j r}, InBlock super s j → r ∈ g.col j → r < g.n := by
    intro j r hj hr
    have := (hp.inBlock_iff hs).1 hj
    exact hg.range j (by omega) r hr
  constructor
  · rintro ⟨c, hc, hct⟩
    obtain ⟨j, j1, j2, j3⟩ := (mem_blockRows hg hb).1 (List.mem_of_getElem? hc)
    have hcn := hg.range j (by omega) c j3
    obtain ⟨t', t1, t2, t3⟩ := hp.exists_block hcn
    have : t' = t := by rw [← hct, hblk c t' t1 t2 t3]
    subst this
    refine ⟨j, c, (hp.inBlock_iff hs).2 ⟨j1, j2⟩, (hp.inBlock_iff t1).2 ⟨t2, t3⟩, j3, ?_⟩
    intro j' r' hj' hr'
    obtain ⟨h1, h2⟩ := (hp.inBlock_iff hs).1 hj'
    have hmem := (mem_blockRows hg hb).2 ⟨j', h1, h2, hr'⟩
    obtain ⟨k, hk, rfl⟩ := List.mem_iff_getElem.1 hmem
    obtain ⟨h0, rfl⟩ := List.getElem?_eq_some_iff.1 hc
    rcases Nat.eq_zero_or_pos k with e | e
    · subst e; exact Nat.le_refl _
    · exact (List.pairwise_iff_getElem.1 blockRows_sorted 0 k h0 hk e).le
  · rintro ⟨j, r, hj, hr, hrj, hmin⟩
    obtain ⟨h1, h2⟩ := (hp.inBlock_iff hs).1 hj
    obtain ⟨h3, h4⟩ := (hp.inBlock_iff ht).1 hr
    have hmem := (mem_blockRows hg hb).2 ⟨j, h1, h2, hrj⟩
    have hpos := List.length_pos_of_mem hmem
    refine ⟨_, List.getElem?_eq_getElem hpos, ?_⟩
    obtain ⟨j', j1, j2, j3⟩ := (mem_blockRows hg hb).1 (List.getElem_mem hpos)
    have hle := hmin j' _ ((hp.inBlock_iff hs).2 ⟨j1, j2⟩) j3
    obtain ⟨k, hk, hkr⟩ := List.mem_iff_getElem.1 hmem
    have heq : (blockRows g (super.getD s 0) (super.getD (s + 1) 0))[0] = r := by
      rcases Nat.eq_zero_or_pos k with e | e
      · subst e; exact hkr
      · have := List.pairwise_iff_getElem.1 blockRows_sorted 0 k hpos hk e
        omega
    rw [heq]
    exact hblk r t ht h3 h4

theorem all_iff {g : Csc} (hg : g.WF) {nodes : Nat} {super : List Nat} (hp : PtrOk super nodes g.n) {s t : Nat}
    (hs : s < nodes) (ht : t < nodes) {sup : List Nat} (hblk : ∀ v t, t < nodes →
      super.getD t 0 ≤ v → v < super.getD (t + 1) 0 → sup.getD v 0 = t) :
    (∃ c ∈ blockRows g (super.getD s 0) (super.getD (s + 1) 0), sup.getD c 0 = t) ↔ Joined g super s t := by
  have hb := hp.dle (b := s + 1) hs
  constructor
  · rintro ⟨c, hc, hct⟩
    obtain ⟨j, j1, j2, j3⟩ := (mem_blockRows hg hb).1 hc
    have hcn := hg.range j (by omega) c j3
    obtain ⟨t', t1, t2, t3⟩ := hp.exists_block hcn
    have : t' = t := by rw [← hct, hblk c t' t1 t2 t3]
    subst this
    exact ⟨j, c, (hp.inBlock_iff hs).2 ⟨j1, j2⟩, (hp.inBlock_iff t1).2 ⟨t2, t3⟩, j3⟩
  · rintro ⟨j, r, hj, hr, hrj⟩
    obtain ⟨h1, h2⟩ := (hp.inBlock_iff hs).1 hj
    obtain ⟨h3, h4⟩ := (hp.inBlock_iff ht).1 hr
    exact ⟨r, (mem_blockRows hg hb).2 ⟨j, h1, h2, hrj⟩, hblk r t ht h3 h4⟩

/-- **C99.** Let `A` and `C` be stored in blocks with the same supernodes and let `B` be a matrix whose
blocked format can be built (C59).  Then `merge_graphs` returns a well-formed graph on three times as many
nodes as there are supernodes, without unused space and without repeated entries.  Node `s` has an edge to
every supernode joined to `s` by an entry of `A`, and to `nodes + s`.  Node `nodes + s` has an edge to
itself and to the supernode (of the third kernel) that contains the smallest row of `B` in the columns of
`s`, and to no other.  Node `2 * nodes + s` has an edge to every supernode joined to `s` by an entry of
`C`. -/
theorem C99_merge_graphs {zero : V} {mA mB mC : Mat V} (hA : mA.WF) (hB : mB.WF) (hC : mC.WF)
    (hBA : mB.n = mA.n) (hCA : mC.n = mA.n) {A C : Blocked V} {nodes : Nat} {super : List Nat}
    (hnodes : 0 < nodes) (hn : nodes ≤ mA.n) (hp : PtrOk super nodes mA.n) (hAn : A.nodes = nodes)
    (hAs : A.super = super) (bA : IsBlocked zero mA nodes super A.nrows A.p A.i A.x)
    (bC : IsBlocked zero mC nodes super C.nrows C.p C.i C.x)
    (hs : ∀ j, j < mB.n → (mB.pat.col j).Pairwise (· < ·))
    (hlast : ∀ j, j + 1 = mB.n → j ∈ mB.pat.col j) :
    ∃ p i, merge zero mA.n A mB C = ok (p, i) ∧ (⟨3 * nodes, p, i⟩ : Csc).WF ∧
      i.length = (⟨3 * nodes, p, i⟩ : Csc).ptr (3 * nodes) ∧
      (∀ c, c < 3 * nodes → ((⟨3 * nodes, p, i⟩ : Csc).col c).Nodup) ∧
      (∀ s, s < nodes → ∀ v, v ∈ (⟨3 * nodes, p, i⟩ : Csc).col s ↔
        (v < nodes ∧ Joined mA.pat super s v) ∨ v = nodes + s) ∧
      (∀ s, s < nodes → ∀ v, v ∈ (⟨3 * nodes, p, i⟩ : Csc).col (nodes + s) ↔
        v = nodes + s ∨ ∃ t, t < nodes ∧ v = 2 * nodes + t ∧ FirstJoined mB.pat super s t) ∧
      (∀ s, s < nodes → ∀ v, v ∈ (⟨3 * nodes, p, i⟩ : Csc).col (2 * nodes + s) ↔
        ∃ t, t < nodes ∧ v = 2 * nodes + t ∧ Joined mC.pat super s t) := by
  subst hAs
  subst hAn
  have hpB : PtrOk A.super A.nodes mB.n := by rw [hBA]; exact hp
  have hpC : PtrOk A.super A.nodes mC.n := by rw [hCA]; exact hp
  obtain ⟨nB, g1, _, _, bB⟩ := C59_blocked_format hB zero hs hlast hpB (by omega)
  obtain ⟨sup, s1, s2, hblk⟩ := wp_iff.1 (supers_spec hp)
  have hsn : ∀ v, v < mA.n → sup.getD v 0 < A.nodes := by
    intro v hv
    obtain ⟨t, t1, t2, t3⟩ := hp.exists_block hv
    rw [hblk v t t1 t2 t3]; exact t1
  have hrange : ∀ {m : Mat V}, m.WF → m.n = mA.n → ∀ s, s < A.nodes → ∀ r ∈ blockRows m.pat (A.super.getD s 0)
      (A.super.getD (s + 1) 0), r < mA.n := by
    intro m hm hmn s hs r hr
    have hb := hp.dle (b := s + 1) hs
    have hnp : m.pat.n = mA.n := hmn
    obtain ⟨j, j1, j2, j3⟩ := (mem_blockRows hm.pat (by omega)).1 hr
    have := hm.pat.range j (by omega) r j3
    omega
  have exA : ∀ j, ∃ L : List Nat, j < A.nodes → L.Nodup ∧ (∀ t, t ∈ L ↔ ∃ c ∈ blockRows mA.pat
      (A.super.getD j 0) (A.super.getD (j + 1) 0), sup.getD c 0 = t) ∧ ∀ (σ : Type) (out : Nat → σ → Res σ) (s : σ),
      rowsAll A.nodes sup A j out (List.replicate A.nodes false) s =
        (forEach L out s >>= fun s => ok (List.replicate A.nodes false, s)) := by
    intro j
    by_cases hj : j < A.nodes
    · obtain ⟨off, o1, o2, o3⟩ := blocked_rows hA hp bA hj
      obtain ⟨L, hL⟩ := rowsAll_eq s2 hsn o1 o2 o3 (hrange hA rfl j hj)
      exact ⟨L, fun _ => hL⟩
    · exact ⟨[], fun h => absurd h hj⟩
  have exB : ∀ j, ∃ L : List Nat, j < A.nodes → L.Nodup ∧ (∀ t, t ∈ L ↔ ∃ c, (blockRows mB.pat
      (A.super.getD j 0) (A.super.getD (j + 1) 0))[0]? = some c ∧ sup.getD c 0 = t) ∧
      ∀ (σ : Type) (out : Nat → σ → Res σ) (s : σ),
      rowsFirst A.nodes sup nB j out (List.replicate A.nodes false) s =
        (forEach L out s >>= fun s => ok (List.replicate A.nodes false, s)) := by
    intro j
    by_cases hj : j < A.nodes
    · obtain ⟨off, o1, o2, o3⟩ := blocked_rows hB hpB bB hj
      obtain ⟨L, hL⟩ := rowsFirst_eq s2 hsn o1 o2 o3 (hrange hB hBA j hj)
      exact ⟨L, fun _ => hL⟩
    · exact ⟨[], fun h => absurd h hj⟩
  have exC : ∀ j, ∃ L : List Nat, j < A.nodes → L.Nodup ∧ (∀ t, t ∈ L ↔ ∃ c ∈ blockRows mC.pat
      (A.super.getD j 0) (A.super.getD (j + 1) 0), sup.getD c 0 = t) ∧ ∀ (σ : Type) (out : Nat → σ → Res σ) (s : σ),
      rowsAll A.nodes sup C j out (List.replicate A.nodes false) s =
        (forEach L out s >>= fun s => ok (List.replicate A.nodes false, s)) := by
    intro j
    by_cases hj : j < A.nodes
    · obtain ⟨off, o1, o2, o3⟩ := blocked_rows hC hpC bC hj
      obtain ⟨L, hL⟩ := rowsAll_eq s2 hsn o1 o2 o3 (hrange hC hCA j hj)
      exact ⟨L, fun _ => hL⟩
    · exact ⟨[], fun h => absurd h hj⟩
  choose LA hLA using exA
  choose LB hLB using exB
  choose LC hLC using exC
  obtain ⟨⟨p, i⟩, hr, heq⟩ := wp_iff.1 (merge_eq (zero := zero) (n := mA.n) (C := C) (B := mB) hnodes g1 s1
    (fun j hj => (hLA j hj).2.2) (fun j hj => (hLB j hj).2.2) (fun j hj => (hLC j hj).2.2))
  dsimp only at heq
  have hmA : ∀ s, s < A.nodes → ∀ t, t ∈ LA s ↔ t < A.nodes ∧ Joined mA.pat A.super s t := by
    intro s hs t
    rw [(hLA s hs).2.1]
    constructor
    · rintro ⟨c, hc, rfl⟩
      have ht := hsn c (hrange hA rfl s hs c hc)
      exact ⟨ht, (all_iff hA.pat hp hs ht hblk).1 ⟨c, hc, rfl⟩⟩
    · rintro ⟨ht, hj⟩; exact (all_iff hA.pat hp hs ht hblk).2 hj
  have hmC : ∀ s, s < A.nodes → ∀ t, t ∈ LC s ↔ t < A.nodes ∧ Joined mC.pat A.super s t := by
    intro s hs t
    rw [(hLC s hs).2.1]
    constructor
    · rintro ⟨c, hc, rfl⟩
      have ht := hsn c (hrange hC hCA s hs c hc)
      exact ⟨ht, (all_iff hC.pat hpC hs ht hblk).1 ⟨c, hc, rfl⟩⟩
    · rintro ⟨ht, hj⟩; exact (all_iff hC.pat hpC hs ht hblk).2 hj
  have hmB : ∀ s, s < A.nodes → ∀ t, t ∈ LB s ↔ t < A.nodes ∧ FirstJoined mB.pat A.super s t := by
    intro s hs t
    rw [(hLB s hs).2.1]
    constructor
    · rintro ⟨c, hc, rfl⟩
      have ht := hsn c (hrange hB hBA s hs c (List.mem_of_getElem? hc))
      exact ⟨ht, (head_iff hB.pat hpB hs ht hblk).1 ⟨c, hc, rfl⟩⟩
    · rintro ⟨ht, hj⟩; exact (head_iff hB.pat hpB hs ht hblk).2 hj
  have hcol : ∀ c, c < 3 * A.nodes → (⟨3 * A.nodes, p, i⟩ : Csc).col c = colsOf A.nodes LA LB LC c := by
    intro c hc; rw [heq, Csc.ofFun_col hc]
  have eA : ∀ s, s < A.nodes → (⟨3 * A.nodes, p, i⟩ : Csc).col s = LA s ++ [s + A.nodes] := by
    intro s hs
    rw [hcol s (by omega), colsOf, if_pos hs]
  have eB : ∀ s, s < A.nodes → (⟨3 * A.nodes, p, i⟩ : Csc).col (A.nodes + s)
      = (A.nodes + s) :: (LB s).map (· + 2 * A.nodes) := by
    intro s hs
    rw [hcol _ (by omega), colsOf, if_neg (by omega), if_pos (by omega), Nat.add_sub_cancel_left]
  have eC : ∀ s, s < A.nodes → (⟨3 * A.nodes, p, i⟩ : Csc).col (2 * A.nodes + s)
      = (LC s).map (· + 2 * A.nodes) := by
    intro s hs
    rw [hcol _ (by omega), colsOf, if_neg (by omega), if_neg (by omega), Nat.add_sub_cancel_left]
  have mA' : ∀ s, s < A.nodes → ∀ v, v ∈ (⟨3 * A.nodes, p, i⟩ : Csc).col s ↔
      (v < A.nodes ∧ Joined mA.pat A.super s v) ∨ v = A.nodes + s := by
    intro s hs v
    rw [eA s hs, List.mem_append, hmA s hs, List.mem_singleton, Nat.add_comm s]
  have mB' : ∀ s, s < A.nodes → ∀ v, v ∈ (⟨3 * A.nodes, p, i⟩ : Csc).col (A.nodes + s) ↔
      v = A.nodes + s ∨ ∃ t, t < A.nodes ∧ v = 2 * A.nodes + t ∧ FirstJoined mB.pat A.super s t := by
    intro s hs v
    rw [eB s hs, List.mem_cons, List.mem_map]
    constructor
    · rintro (h | ⟨t, ht, rfl⟩)
      · exact .inl h
      · exact .inr ⟨t, ((hmB s hs t).1 ht).1, Nat.add_comm _ _, ((hmB s hs t).1 ht).2⟩
    · rintro (h | ⟨t, t1, rfl, t2⟩)
      · exact .inl h
      · exact .inr ⟨t, (hmB s hs t).2 ⟨t1, t2⟩, Nat.add_comm _ _⟩
  have mC' : ∀ s, s < A.nodes → ∀ v, v ∈ (⟨3 * A.nodes, p, i⟩ : Csc).col (2 * A.nodes + s) ↔
      ∃ t, t < A.nodes ∧ v = 2 * A.nodes + t ∧ Joined mC.pat A.super s t := by
    intro s hs v
    rw [eC s hs, List.mem_map]
    constructor
    · rintro ⟨t, ht, rfl⟩
      exact ⟨t, ((hmC s hs t).1 ht).1, Nat.add_comm _ _, ((hmC s hs t).1 ht).2⟩
    · rintro ⟨t, t1, rfl, t2⟩
      exact ⟨t, (hmC s hs t).2 ⟨t1, t2⟩, Nat.add_comm _ _⟩
  have hthree : ∀ c, c < 3 * A.nodes → c < A.nodes ∨ (∃ s, s < A.nodes ∧ c = A.nodes + s) ∨
      ∃ s, s < A.nodes ∧ c = 2 * A.nodes + s := by
    intro c hc
    by_cases h1 : c < A.nodes
    · exact .inl h1
    · by_cases h2 : c < 2 * A.nodes
      · exact .inr (.inl ⟨c - A.nodes, by omega, by omega⟩)
      · exact .inr (.inr ⟨c - 2 * A.nodes, by omega, by omega⟩)
  have hinj : Function.Injective (· + 2 * A.nodes) := fun a b h => Nat.add_right_cancel h
  refine ⟨p, i, hr, ?_, ?_, ?_, mA', mB', mC'⟩
  · rw [heq]
    refine Csc.ofFun_wf fun c hc v hv => ?_
    rw [← hcol c hc] at hv
    rcases hthree c hc with h | ⟨s, h, rfl⟩ | ⟨s, h, rfl⟩
    · rcases (mA' c h v).1 hv with ⟨h1, _⟩ | h1 <;> omega
    · rcases (mB' s h v).1 hv with h1 | ⟨t, h1, h2, _⟩ <;> omega
    · obtain ⟨t, h1, h2, _⟩ := (mC' s h v).1 hv
      omega
  · have h1 : i = (Csc.ofFun (3 * A.nodes) (colsOf A.nodes LA LB LC)).i := by rw [← heq]
    rw [heq, Csc.ofFun_ptr (Nat.le_refl _), h1]
    rfl
  · intro c hc
    rcases hthree c hc with h | ⟨s, h, rfl⟩ | ⟨s, h, rfl⟩
    · rw [eA c h]
      refine List.Nodup.append (hLA c h).1 (List.nodup_singleton _) ?_
      intro x hx hx'
      rw [List.mem_singleton] at hx'
      have := ((hmA c h x).1 hx).1
      omega
    · rw [eB s h, List.nodup_cons]
      refine ⟨?_, (List.nodup_map_iff hinj).2 (hLB s h).1⟩
      rw [List.mem_map]
      rintro ⟨t, _, ht⟩
      omega
    · rw [eC s h]
      exact (List.nodup_map_iff hinj).2 (hLC s h).1

/-- **C99.** If the entries of `B` join every supernode to at most one supernode, no dependence between the
second and the third kernel is lost: there `FirstJoined` and `Joined` are the same. -/
theorem C99_exact_if_single {g : Csc} (hg : g.WF) {nodes : Nat} {super : List Nat} (hp : PtrOk super nodes g.n)
    {s : Nat} (hs : s < nodes)
    (hone : ∀ t t', t < nodes → t' < nodes → Joined g super s t → Joined g super s t' → t = t') {t : Nat}
    (ht : t < nodes) : FirstJoined g super s t ↔ Joined g super s t := by
  constructor
  · rintro ⟨j, r, h1, h2, h3, _⟩; exact ⟨j, r, h1, h2, h3⟩
  · rintro ⟨j, r, h1, h2, h3⟩
    obtain ⟨j1, j2⟩ := (hp.inBlock_iff hs).1 h1
    have hb := hp.dle (b := s + 1) hs
    have hmem := (mem_blockRows hg hb).2 ⟨j, j1, j2, h3⟩
    have hpos := List.length_pos_of_mem hmem
    obtain ⟨sup, _, _, hblk⟩ := wp_iff.1 (supers_spec hp)
    obtain ⟨j', k1, k2, k3⟩ := (mem_blockRows hg hb).1 (List.getElem_mem hpos)
    obtain ⟨t', t1, t2, t3⟩ := hp.exists_block (hg.range j' (by omega) _ k3)
    have hf := (head_iff hg hp hs t1 hblk).1 ⟨_, List.getElem?_eq_getElem hpos, hblk _ _ t1 t2 t3⟩
    obtain ⟨a, b, c1, c2, c3, _⟩ := id hf
    rw [hone t t' ht t1 ⟨j, r, h1, h2, h3⟩ ⟨a, b, c1, c2, c3⟩]
    exact hf

/-- Three supernodes of four columns; `A` and `C` are `[[*], [*, *], [., *, *], [*, ., ., *]]`. -/
def exA : Mat Nat := ⟨4, [0, 3, 5, 6, 7], [0, 1, 3, 1, 2, 2, 3], [1, 2, 3, 4, 5, 6, 7]⟩

/-- The identity. -/
def exB : Mat Nat := ⟨4, [0, 1, 2, 3, 4], [0, 1, 2, 3], [1, 1, 1, 1]⟩

/-- The blocked format of `exA`. -/
def exAB : Blocked Nat := ⟨3, [0, 2, 3, 4], [4, 1, 1], [0, 8, 9, 10, 0], [0, 1, 2, 3, 0, 1, 2, 3, 2, 3],
  [1, 2, 0, 3, 0, 4, 5, 0, 6, 7]⟩

theorem exAB_eq : generate 0 exA 3 [0, 2, 3, 4] = ok exAB := by decide +kernel

theorem exA_wf : exA.WF := ⟨⟨by decide, by decide, by decide, by decide, by decide⟩, by decide⟩

theorem exB_wf : exB.WF := ⟨⟨by decide, by decide, by decide, by decide, by decide⟩, by decide⟩

/-- The hypotheses of `C99_merge_graphs` hold, and the merged graph has nine nodes. -/
example : PtrOk [0, 2, 3, 4] 3 exA.n ∧ IsBlocked 0 exA 3 [0, 2, 3, 4] exAB.nrows exAB.p exAB.i exAB.x ∧
    (∀ j, j < exB.n → (exB.pat.col j).Pairwise (· < ·)) ∧ (∀ j, j + 1 = exB.n → j ∈ exB.pat.col j) ∧
    merge 0 4 exAB exB exAB = ok ([0, 4, 6, 8, 10, 12, 14, 17, 18, 19],
      [0, 1, 2, 3, 1, 4, 2, 5, 3, 6, 4, 7, 5, 8, 6, 7, 8, 7, 8]) := by
  have hp : PtrOk [0, 2, 3, 4] 3 exA.n := PtrOk.mk' (by decide) (by decide) (by decide) (by decide)
  obtain ⟨B, h1, _, _, h2⟩ := C59_blocked_format exA_wf 0 (by decide) (fun j hj => by
    obtain rfl : j = 3 := by have : j + 1 = 4 := hj; omega
    decide) hp (by decide)
  have : B = exAB := by rw [exAB_eq] at h1; injection h1 with h; exact h.symm
  subst this
  refine ⟨hp, h2, by decide, fun j hj => ?_, by decide +kernel⟩
  obtain rfl : j = 3 := by have : j + 1 = 4 := hj; omega
  decide

/-- **C99**, limit of the code: if a supernode of `B` has rows in two supernodes, the second dependence is
lost.  Here column 0 of `B` has the rows 0 and 1, so node 5 (row 1 of the third kernel) depends on node 2
(column 0 of the second kernel), but column 2 of the result holds only 2 and 4. -/
theorem C99_merge_loses : ∃ A B : Mat Nat, ∃ bA : Blocked Nat, generate 0 A 2 [0, 1, 2] = ok bA ∧
    Joined B.pat [0, 1, 2] 0 1 ∧ ∃ p i, merge 0 2 bA B bA = ok (p, i) ∧
      5 ∉ (⟨6, p, i⟩ : Csc).col 2 := by
  refine ⟨⟨2, [0, 1, 2], [0, 1], [1, 1]⟩, ⟨2, [0, 2, 3], [0, 1, 1], [1, 1, 1]⟩,
    ⟨2, [0, 1, 2], [1, 1], [0, 1, 2], [0, 1], [1, 1]⟩, by decide +kernel,
    ⟨0, 1, ⟨0, 1, rfl, rfl, by decide, by decide⟩, ⟨1, 2, rfl, rfl, by decide, by decide⟩, by decide⟩,
    _, _, rfl, by decide +kernel⟩

/-- **C99**, limit of the code: without supernodes the array of pointers is `NULL` and is written. -/
theorem C99_merge_empty (zero : V) {n : Nat} {A C : Blocked V} {B : Mat V} (h : A.nodes = 0) :
    merge zero n A B C = ub := by
  unfold merge
  dsimp only
  rw [h]
  rfl

end Verif.MergeG
