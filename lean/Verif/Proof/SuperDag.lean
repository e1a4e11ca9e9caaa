import Verif.Proof.Super
import Mathlib.Data.List.Perm.Basic

/-!
# Lemmas about the dependence graph of supernodes
-/

namespace Verif.Super
open Res

theorem _root_.Verif.IsSupernodes.pos {Same : Nat → Nat → Prop} {n limit : Nat} {ptr : List Nat}
    (h : IsSupernodes Same n limit ptr) : 0 < ptr.length := by
  have := h.first
  by_contra hc
  rw [List.getElem?_eq_none (by omega)] at this
  cases this

theorem _root_.Verif.IsSupernodes.ptrOk {Same : Nat → Nat → Prop} {n limit : Nat} {ptr : List Nat}
    (h : IsSupernodes Same n limit ptr) : PtrOk ptr (ptr.length - 1) n :=
  ⟨h.first, h.last, fun b _ lo hi hlo hhi => (h.range b lo hi hlo hhi).1.le⟩

theorem _root_.Verif.IsSupernodes.strict {Same : Nat → Nat → Prop} {n limit : Nat} {ptr : List Nat}
    (h : IsSupernodes Same n limit ptr) {s : Nat} (hs : s < ptr.length - 1) :
    ptr.getD s 0 < ptr.getD (s + 1) 0 :=
  (h.range s _ _ (h.ptrOk.get (by omega)) (h.ptrOk.get (by omega))).1

theorem rangeGrouping_partition {n : Nat} {ptr : List Nat} (h : PtrOk ptr (ptr.length - 1) n) :
    (rangeGrouping n ptr).Partition n :=
  ⟨h, by
    unfold rangeGrouping
    dsimp only
    rw [List.take_of_length_le (by simp)]⟩

theorem rangeGrouping_mem {n : Nat} {ptr : List Nat} (h : PtrOk ptr (ptr.length - 1) n) {v s : Nat} :
    (rangeGrouping n ptr).Mem v s ↔ s < ptr.length - 1 ∧ ptr.getD s 0 ≤ v ∧ v < ptr.getD (s + 1) 0 := by
  unfold Grouping.Mem
  rw [Grouping.rows_eq]
  unfold rangeGrouping
  dsimp only
  constructor
  · rintro ⟨hs, hv⟩
    rw [mem_slice] at hv
    obtain ⟨k, h1, h2, h3⟩ := hv
    have hk : k < n := by have := h.dle (b := s + 1) (by omega); omega
    rw [List.getElem?_range hk] at h3
    obtain rfl := Option.some.inj h3
    exact ⟨hs, h1, h2⟩
  · rintro ⟨hs, h1, h2⟩
    refine ⟨hs, mem_slice.2 ⟨v, h1, h2, ?_⟩⟩
    have := h.dle (b := s + 1) (by omega)
    rw [List.getElem?_range (by omega)]

theorem nodeToSup_wp {n : Nat} {ptr : List Nat} (h : PtrOk ptr (ptr.length - 1) n) :
    wp (nodeToSup n ptr) (fun inv => inv.length = n ∧ ∀ s v, s < ptr.length - 1 →
      ptr.getD s 0 ≤ v → v < ptr.getD (s + 1) 0 → inv.getD v 0 = s) := by
  unfold nodeToSup
  have hlen := h.len
  refine forRange_wp (fun i (inv : List Nat) => inv.length = n ∧ ∀ s v, s < i → ptr.getD s 0 ≤ v →
    v < ptr.getD (s + 1) 0 → inv.getD v 0 = s) (by omega) ⟨by simp, by intro s v hs; omega⟩ ?_
  rintro i inv _ hi ⟨h1, h2⟩
  rw [rd_getD 0 (show i < ptr.length by omega), rd_getD 0 (show i + 1 < ptr.length by omega)]
  simp only [ok_bind]
  have hle := h.dmono hi
  have hle' := h.dle (b := i + 1) (by omega)
  refine forRange_wp' (fun k (inv : List Nat) => inv.length = n ∧
    (∀ s v, s < i → ptr.getD s 0 ≤ v → v < ptr.getD (s + 1) 0 → inv.getD v 0 = s) ∧
    ∀ v, ptr.getD i 0 ≤ v → v < k → inv.getD v 0 = i) hle ⟨h1, h2, by intro v _ _; omega⟩ ?_ ?_
  · rintro k inv hk1 hk2 ⟨a1, a2, a3⟩
    rw [wr_eq (by omega), wp_ok]
    refine ⟨by simp [a1], ?_, ?_⟩
    · intro s v hs hv1 hv2
      have := h.dmono_le (a := s + 1) (b := i) (by omega) (by omega)
      rw [getD_set, if_neg (by omega)]
      exact a2 s v hs hv1 hv2
    · intro v hv1 hv2
      rw [getD_set]
      by_cases hvk : k = v
      · rw [if_pos ⟨hvk, by omega⟩]
      · rw [if_neg (fun hh => hvk hh.1)]
        exact a3 v hv1 (by omega)
  · rintro inv ⟨a1, a2, a3⟩
    refine ⟨a1, ?_⟩
    intro s v hs hv1 hv2
    by_cases hsi : s = i
    · subst hsi; exact a3 v hv1 hv2
    · exact a2 s v (by omega) hv1 hv2

theorem mem_insertSet {v t : Nat} {l : List Nat} : t ∈ insertSet v l ↔ t = v ∨ t ∈ l := by
  unfold insertSet
  split
  · next h =>
    constructor
    · exact .inr
    · rintro (rfl | ht)
      · exact h
      · exact ht
  · simp [or_comm]

theorem nodup_insertSet {v : Nat} {l : List Nat} (h : l.Nodup) : (insertSet v l).Nodup := by
  unfold insertSet
  split
  · exact h
  · next hv =>
    refine List.Nodup.append h (List.nodup_singleton v) ?_
    intro x hx hxv
    rw [List.mem_singleton] at hxv
    subst hxv
    exact hv hx

theorem length_insertSet {v : Nat} {l : List Nat} : (insertSet v l).length ≤ l.length + 1 := by
  unfold insertSet
  split <;> simp

theorem childSet_wp {ix inv : List Nat} {lo hi e k0 : Nat} (hle : lo ≤ hi) (hix : hi ≤ ix.length)
    (hinv : ∀ k, lo ≤ k → k < hi → ix.getD k 0 < inv.length) (hk0 : lo ≤ k0) (hk0' : k0 < hi)
    (he : ix.getD k0 0 < e) :
    wp (childSet ix inv lo hi e) (fun buf => buf.Nodup ∧ buf.length + 1 ≤ hi - lo ∧
      ∀ t, t ∈ buf ↔ ∃ k, lo ≤ k ∧ k < hi ∧ e ≤ ix.getD k 0 ∧ inv.getD (ix.getD k 0) 0 = t) := by
  unfold childSet
  refine forRange_wp' (fun i (buf : List Nat) => buf.Nodup ∧ buf.length + (if k0 < i then 1 else 0) ≤ i - lo ∧
    ∀ t, t ∈ buf ↔ ∃ k, lo ≤ k ∧ k < i ∧ e ≤ ix.getD k 0 ∧ inv.getD (ix.getD k 0) 0 = t) hle ?_ ?_ ?_
  · refine ⟨List.nodup_nil, by rw [if_neg (by omega)]; simp, ?_⟩
    intro t
    simp only [List.not_mem_nil, false_iff]
    rintro ⟨k, h1, h2, _⟩; omega
  · rintro i buf h1 h2 ⟨a1, a2, a3⟩
    rw [rd_getD 0 (show i < ix.length by omega)]
    simp only [ok_bind]
    split
    · next hc =>
      rw [rd_getD 0 (hinv i h1 h2)]
      simp only [ok_bind, wp_ok]
      have hik : k0 ≠ i := by rintro rfl; omega
      refine ⟨nodup_insertSet a1, ?_, ?_⟩
      · have := length_insertSet (v := inv.getD (ix.getD i 0) 0) (l := buf)
        split
        · next hk => rw [if_pos (by omega)] at a2; omega
        · omega
      · intro t
        rw [mem_insertSet, a3]
        constructor
        · rintro (rfl | ⟨k, b1, b2, b3⟩)
          · exact ⟨i, h1, by omega, hc, rfl⟩
          · exact ⟨k, b1, by omega, b3⟩
        · rintro ⟨k, b1, b2, b3, b4⟩
          by_cases hki : k = i
          · subst hki; exact .inl b4.symm
          · exact .inr ⟨k, b1, by omega, b3, b4⟩
    · next hc =>
      rw [wp_ok]
      refine ⟨a1, ?_, ?_⟩
      · split
        · omega
        · rename_i hk
          rw [if_neg (by omega)] at a2; omega
      · intro t
        rw [a3]
        constructor
        · rintro ⟨k, b1, b2, b3⟩; exact ⟨k, b1, by omega, b3⟩
        · rintro ⟨k, b1, b2, b3, b4⟩
          have hki : k ≠ i := by rintro rfl; exact hc b3
          exact ⟨k, b1, by omega, b3, b4⟩
  · rintro buf ⟨a1, a2, a3⟩
    rw [if_pos hk0'] at a2
    exact ⟨a1, a2, a3⟩

theorem copyTo_wp {l set : List Nat} {a : Nat} (h : a + l.length ≤ set.length) :
    wp (copyTo l a set) (fun set' => set'.length = set.length ∧ slice set' a (a + l.length) = l ∧
      ∀ k, k < a ∨ a + l.length ≤ k → set'[k]? = set[k]?) := by
  unfold copyTo
  refine forRange_wp' (fun t (s : List Nat) => s.length = set.length ∧ (∀ k, k < t → s[a + k]? = l[k]?) ∧
    ∀ k, k < a ∨ a + t ≤ k → s[k]? = set[k]?) (by omega) ⟨rfl, by intro k hk; omega, fun _ _ => rfl⟩ ?_ ?_
  · rintro t s _ ht ⟨h1, h2, h3⟩
    rw [rd_eq ht]
    simp only [ok_bind]
    rw [wr_eq (by omega), wp_ok]
    refine ⟨by simp [h1], ?_, ?_⟩
    · intro k hk
      by_cases hkt : k = t
      · subst hkt
        rw [List.getElem?_set_self (by omega), List.getElem?_eq_getElem ht]
      · rw [List.getElem?_set_ne (by omega)]
        exact h2 k (by omega)
    · intro k hk
      rw [List.getElem?_set_ne (by omega)]
      exact h3 k (by omega)
  · rintro s ⟨h1, h2, h3⟩
    refine ⟨h1, ?_, h3⟩
    apply List.ext_getElem?
    intro k
    rw [getElem?_slice]
    by_cases hk : k < l.length
    · rw [if_pos (by omega)]; exact h2 k hk
    · rw [if_neg (by omega), List.getElem?_eq_none (by omega)]

/-- The groups that are listed for supernode `s`. -/
def DagMem (p ix inv ptr : List Nat) (s t : Nat) : Prop :=
  t = s ∨ ∃ k, p.getD (ptr.getD s 0) 0 ≤ k ∧ k < p.getD (ptr.getD (s + 1) 0) 0 ∧
    ptr.getD (s + 1) 0 ≤ ix.getD k 0 ∧ inv.getD (ix.getD k 0) 0 = t

structure DagInv (p ix inv ptr : List Nat) (nnz sup : Nat) (dag set : List Nat) : Prop where
  len : dag.length = sup + 1
  zero : dag.getD 0 0 = 0
  slen : set.length = nnz
  le : dag.getD sup 0 ≤ p.getD (ptr.getD sup 0) 0
  mono : ∀ s, s < sup → dag.getD s 0 ≤ dag.getD (s + 1) 0
  cont : ∀ s, s < sup → (slice set (dag.getD s 0) (dag.getD (s + 1) 0)).Pairwise (· < ·) ∧
    ∀ t, t ∈ slice set (dag.getD s 0) (dag.getD (s + 1) 0) ↔ DagMem p ix inv ptr s t

theorem DagInv.mono_le {p ix inv ptr : List Nat} {nnz sup : Nat} {dag set : List Nat}
    (h : DagInv p ix inv ptr nnz sup dag set) {a : Nat} : ∀ {b : Nat}, a ≤ b → b ≤ sup →
    dag.getD a 0 ≤ dag.getD b 0 := by
  intro b hab hb
  induction b with
  | zero => obtain rfl : a = 0 := by omega
            exact le_refl _
  | succ b ih =>
    by_cases hc : a = b + 1
    · subst hc; exact le_refl _
    · exact le_trans (ih (by omega) (by omega)) (h.mono b (by omega))

theorem createDepDAG_wp {debug : Bool} {hash : List Nat → List Nat} (hhash : ∀ l, (hash l).Perm l)
    {g : Csc} (hg : g.WF) (hd : g.OneDiag) {nnz : Nat} (hnnz : g.ptr g.n ≤ nnz) {ptr inv : List Nat}
    (hp : PtrOk ptr (ptr.length - 1) g.n) (hstrict : ∀ s, s < ptr.length - 1 → ptr.getD s 0 < ptr.getD (s + 1) 0)
    (hinv : inv.length = g.n) :
    wp (createDepDAG debug hash (some nnz) ptr inv g.p g.i) (fun r =>
      ∃ set, r.2 = set.take (r.1.getD (ptr.length - 1) 0) ∧
        DagInv g.p g.i inv ptr nnz (ptr.length - 1) r.1 set) := by
  unfold createDepDAG
  dsimp only
  have hlen := hp.len
  simp only [wp_bind]
  refine wp_mono (forRange_wp (fun sup (s : List Nat × List Nat) => DagInv g.p g.i inv ptr nnz sup s.1 s.2)
    (by omega) ?_ ?_) ?_
  · refine ⟨rfl, rfl, by simp, ?_, by intro s hs; omega, by intro s hs; omega⟩
    simp
  · rintro sup ⟨dag, set⟩ _ hsup hI
    dsimp only at hI ⊢
    have hst := hstrict sup hsup
    have hle := hp.dle (b := sup) (by omega)
    have hle' := hp.dle (b := sup + 1) (by omega)
    rw [rd_getD 0 (show sup < ptr.length by omega), rd_getD 0 (show sup + 1 < ptr.length by omega)]
    simp only [ok_bind]
    rw [hg.rd_p (by omega), hg.rd_p (by omega)]
    simp only [ok_bind]
    have hbn : ptr.getD sup 0 < g.n := by omega
    have hm1 := hg.mono_le (show ptr.getD sup 0 + 1 ≤ ptr.getD (sup + 1) 0 by omega) hle'
    have hm2 := hg.mono _ hbn
    -- the diagonal entry of the first column
    have hdiag : ptr.getD sup 0 ∈ g.col (ptr.getD sup 0) := List.count_pos_iff.1 (by rw [hd _ hbn]; omega)
    obtain ⟨k0, hk0, hk0', hk0v⟩ := (hg.mem_col hbn).1 hdiag
    have hmn := hg.mono_le hle' (le_refl g.n)
    rw [if_neg (by omega)]
    simp only [wp_bind]
    refine wp_mono (childSet_wp (k0 := k0) (e := ptr.getD (sup + 1) 0) (by omega)
      (hg.ptr_le hle') ?_ (by omega) (by omega) ?_) ?_
    · intro k h1 h2
      obtain ⟨u, hu1, hu2, hu3, hu4⟩ : ∃ u, u < g.n ∧ g.ptr u ≤ k ∧ k < g.ptr (u + 1) ∧ True := by
        have hpp : PtrOk g.p g.n (g.ptr g.n) := PtrOk.mk' (by rw [hg.plen]; omega) hg.p0 rfl hg.mono
        obtain ⟨u, hu⟩ := hpp.exists_block (k := k) (by omega)
        exact ⟨u, hu.1, hu.2.1, hu.2.2, trivial⟩
      have := hg.idx_lt hu1 hu2 hu3
      rw [hinv]
      exact this
    · show g.idx k0 < _
      rw [hk0v]; exact hst
    · rintro buf ⟨b1, b2, b3⟩
      have hback : back dag = ok (dag.getD sup 0) := by
        unfold back
        rw [List.getLast?_eq_getElem?, show dag.length - 1 = sup by rw [hI.len]; omega,
          List.getElem?_eq_getElem (by rw [hI.len]; omega)]
        simp [List.getD_eq_getElem?_getD, hI.len]
      rw [hback, wp_ok]
      set B := insertSet sup buf with hB
      set dag' := dag ++ [dag.getD sup 0 + B.length] with hdag'
      have hBn : B.Nodup := nodup_insertSet b1
      have hBl : B.length ≤ buf.length + 1 := length_insertSet
      have hd1 : ∀ s, s ≤ sup → dag'.getD s 0 = dag.getD s 0 := by
        intro s hs
        rw [hdag', List.getD_eq_getElem?_getD, List.getElem?_append_left (by rw [hI.len]; omega),
          ← List.getD_eq_getElem?_getD]
      have hd2 : dag'.getD (sup + 1) 0 = dag.getD sup 0 + B.length := by
        rw [hdag', List.getD_eq_getElem?_getD, List.getElem?_append_right (by rw [hI.len]), hI.len]
        simp
      have hdl : dag'.length = sup + 2 := by rw [hdag']; simp [hI.len]
      rw [rd_getD 0 (show sup < dag'.length by omega), wp_ok,
        rd_getD 0 (show sup + 1 < dag'.length by omega), wp_ok, hd1 sup (le_refl _), hd2]
      have hle0 : dag.getD sup 0 ≤ g.ptr (ptr.getD sup 0) := hI.le
      have hpl := (hhash B).length_eq
      refine wp_mono (copyTo_wp (l := hash B) (set := set) (a := dag.getD sup 0) ?_) ?_
      · rw [hI.slen]; omega
      · rintro set1 ⟨c1, c2, c3⟩
        rw [hpl] at c2 c3
        refine wp_mono (Hdagg.sortRange_spec (l := set1) (lo := dag.getD sup 0) (hi := dag.getD sup 0 + B.length) (by omega) ?_) ?_
        · rw [c1, hI.slen]; omega
        · rintro set2 ⟨e1, e2, e3, e4⟩
          rw [c2] at e3
          have hperm : (slice set2 (dag.getD sup 0) (dag.getD sup 0 + B.length)).Perm B := e3.trans (hhash B)
          have hsame : ∀ k, k < dag.getD sup 0 → set2[k]? = set[k]? := by
            intro k hk
            rw [e2 k (.inl hk), c3 k (.inl hk)]
          rw [wp_ok]
          refine ⟨hdl, ?_, ?_, ?_, ?_, ?_⟩
          · dsimp only; rw [hd1 0 (by omega)]; exact hI.zero
          · dsimp only; rw [e1, c1, hI.slen]
          · dsimp only
            rw [hd2]
            show _ ≤ g.ptr (ptr.getD (sup + 1) 0)
            omega
          · intro s hs
            dsimp only
            by_cases hss : s = sup
            · subst hss; rw [hd1 s (le_refl _), hd2]; omega
            · rw [hd1 s (by omega), hd1 (s + 1) (by omega)]
              exact hI.mono s (by omega)
          · intro s hs
            dsimp only
            by_cases hss : s = sup
            · subst hss
              rw [hd1 s (le_refl _), hd2]
              refine ⟨?_, ?_⟩
              · have hnd : (slice set2 (dag.getD s 0) (dag.getD s 0 + B.length)).Nodup := hperm.nodup_iff.2 hBn
                exact List.Pairwise.imp₂ (fun a b h1 h2 => lt_of_le_of_ne h1 h2) e4 hnd
              · intro t
                rw [hperm.mem_iff, hB, mem_insertSet, b3]
                rfl
            · rw [hd1 s (by omega), hd1 (s + 1) (by omega)]
              have hms := hI.mono_le (a := s + 1) (b := sup) (by omega) (le_refl _)
              rw [slice_congr (l := set2) (l' := set) (fun k _ hk => hsame k (by omega))]
              exact hI.cont s (by omega)
  · rintro ⟨dag, set⟩ hI
    dsimp only at hI ⊢
    rw [if_neg (fun hh => hh.2 hI.len)]
    have hback : back dag = ok (dag.getD (ptr.length - 1) 0) := by
      unfold back
      rw [List.getLast?_eq_getElem?, show dag.length - 1 = ptr.length - 1 by rw [hI.len]; omega,
        List.getElem?_eq_getElem (by rw [hI.len]; omega)]
      simp [List.getD_eq_getElem?_getD, hI.len]
    simp only [wp_bind]
    rw [hback, wp_ok, wp_ok]
    refine ⟨set, ?_, hI⟩
    dsimp only
    have h1 := hI.le
    have h2 : g.p.getD (ptr.getD (ptr.length - 1) 0) 0 = g.ptr g.n := by rw [hp.dlast]; rfl
    rw [h2] at h1
    have h3 := hI.slen
    rw [show dag.getD (ptr.length - 1) 0 - set.length = 0 by omega]
    simp

/-! ## `BCSCMatrix::supernodes` -/

theorem simLower_wp {g : Csc} (h : g.WF) {limit : Int} {lim : Nat} (hl : (lim : Int) = max limit 0) {a : Nat}
    (ha : a < g.n) :
    wp (simLower g.n limit g.p g.i a) (fun w => a + w + 1 ≤ g.n ∧ w ≤ lim ∧
      (∀ c, a < c → c < a + w + 1 → NestedCols g a c) ∧
      (a + w + 1 < g.n → w < lim → ¬ NestedCols g a (a + w + 1))) := by
  unfold simLower
  refine loopF_wp (fun w => a + w + 1 ≤ g.n ∧ w ≤ lim ∧ ∀ c, a < c → c < a + w + 1 → NestedCols g a c)
    (fun w => g.n - w) ?_ (g.n + 1) 0 (by omega) ⟨by omega, by omega, fun c h1 h2 => by omega⟩
  rintro w ⟨h2, h3, h4⟩
  split
  · next hc =>
    simp only [wp_bind]
    refine wp_mono (blockSame_wp h (show a < a + 1 + w by omega) hc.1) ?_
    intro r hr
    cases r with
    | true =>
      simp only [if_true, wp_ok, Ctl.post_next]
      refine ⟨⟨by omega, by omega, ?_⟩, by omega⟩
      intro c hc1 hc2
      by_cases hcw : c = a + 1 + w
      · subst hcw; exact hr.1 rfl
      · exact h4 c hc1 (by omega)
    | false =>
      simp only [Bool.false_eq_true, if_false, wp_ok, Ctl.post_brk]
      refine ⟨h2, h3, h4, fun _ _ hh => ?_⟩
      rw [show a + w + 1 = a + 1 + w by omega] at hh
      simpa using hr.2 hh
  · next hc =>
    simp only [wp_ok, Ctl.post_brk]
    exact ⟨h2, h3, h4, fun hh1 hh2 => absurd ⟨by omega, by omega⟩ hc⟩

theorem simUpper_wp {g : Csc} (h : g.WF) {limit : Int} {lim : Nat} (hl : (lim : Int) = max limit 0) {a : Nat}
    (ha : a < g.n) :
    wp (simUpper g.n limit g.p g.i a) (fun w => w ≤ a ∧ w ≤ lim ∧
      (∀ c, a < c + w + 1 → c < a → NestedUpper g a c) ∧
      (w + 1 ≤ a → w < lim → ¬ NestedUpper g a (a - 1 - w))) := by
  unfold simUpper
  refine loopF_wp (fun w => w ≤ a ∧ w ≤ lim ∧ ∀ c, a < c + w + 1 → c < a → NestedUpper g a c)
    (fun w => g.n - w) ?_ (g.n + 1) 0 (by omega) ⟨by omega, by omega, fun c h1 h2 => by omega⟩
  rintro w ⟨h2, h3, h4⟩
  split
  · next hc =>
    simp only [wp_bind]
    refine wp_mono (blockSameUp_wp h (show a - 1 - w < a by omega) ha) ?_
    intro r hr
    cases r with
    | true =>
      simp only [if_true, wp_ok, Ctl.post_next]
      refine ⟨⟨by omega, by omega, ?_⟩, by omega⟩
      intro c hc1 hc2
      by_cases hcw : c = a - 1 - w
      · subst hcw; exact hr.1 rfl
      · exact h4 c (by omega) hc2
    | false =>
      simp only [Bool.false_eq_true, if_false, wp_ok, Ctl.post_brk]
      exact ⟨h2, h3, h4, fun _ _ hh => by simpa using hr.2 hh⟩
  · next hc =>
    simp only [wp_ok, Ctl.post_brk]
    exact ⟨h2, h3, h4, fun hh1 hh2 => absurd ⟨by omega, by omega⟩ hc⟩

/-- The limit that is used: `limit + 1` columns, or all columns for `limit = 0`. -/
def blockLimit (n : Nat) (limit : Int) : Nat := (if limit = 0 then n else limit.toNat) + 1

theorem supernodesLower_wp {g : Csc} (h : g.WF) (limit : Int) :
    wp (supernodes g.n limit true g.p g.i) (fun l => ∃ ptr : List Nat, l = ptr.map (fun (v : Nat) => (v : Int)) ∧
      IsSupernodes (NestedCols g) g.n (blockLimit g.n limit) ptr) := by
  unfold supernodes
  simp only [if_true]
  set lim' : Int := if limit = 0 then (g.n : Int) else limit with hlim'
  have hl : ((blockLimit g.n limit - 1 : Nat) : Int) = max lim' 0 := by
    rw [hlim']; unfold blockLimit; split <;> omega
  have hbl : 1 ≤ blockLimit g.n limit := by unfold blockLimit; omega
  simp only [wp_bind]
  refine wp_mono (Q := fun s => ∃ ptr : List Nat, s.2 ++ [(g.n : Int)] = ptr.map (fun (v : Nat) => (v : Int)) ∧
      IsSupernodes (NestedCols g) g.n (blockLimit g.n limit) ptr)
    (whileF_wp (fun (s : Nat × List Int) => s.2.length ≤ s.1 ∧ s.1 ≤ g.n ∧ ∃ ptr : List Nat,
      s.2 ++ [(s.1 : Int)] = ptr.map (fun (v : Nat) => (v : Int)) ∧ ptr[0]? = some 0 ∧
      ptr[ptr.length - 1]? = some s.1 ∧ ∀ t a b, ptr[t]? = some a → ptr[t + 1]? = some b →
        a < b ∧ b - a ≤ blockLimit g.n limit ∧ (∀ c, a < c → c < b → NestedCols g a c) ∧
        (b < g.n → b - a < blockLimit g.n limit → ¬ NestedCols g a b))
    (fun s => g.n - s.1) ?_ g.n _ (by simp) ?_) ?_
  · rintro ⟨col, l⟩ ⟨h1, h2, ptr, h3, h4, h5, h6⟩
    dsimp only at h1 h2 h3 h4 h5 h6 ⊢
    rw [wp_ok]
    by_cases hc : col < g.n
    · rw [if_pos (by simpa using hc)]
      refine ⟨by omega, ?_⟩
      rw [if_neg (by omega)]
      simp only [wp_bind]
      refine wp_mono (simLower_wp h hl hc) ?_
      rintro w ⟨w1, w2, w3, w4⟩
      rw [wp_ok]
      refine ⟨⟨by simp; omega, by dsimp only; omega, ptr ++ [col + w + 1], ?_, ?_, by simp, ?_⟩,
        by dsimp only; omega⟩
      · dsimp only
        rw [h3, List.map_append]
        simp
      · have hpos : 0 < ptr.length := by
          by_contra hcc
          rw [List.getElem?_eq_none (by omega)] at h4; cases h4
        rw [List.getElem?_append_left hpos]; exact h4
      · intro t a b ha hb
        rcases Nat.lt_trichotomy (t + 1) ptr.length with ht | ht | ht
        · rw [List.getElem?_append_left (by omega)] at ha hb
          exact h6 t a b ha hb
        · rw [List.getElem?_append_left (by omega)] at ha
          rw [show ptr.length - 1 = t by omega, ha] at h5
          obtain rfl := Option.some.inj h5
          rw [List.getElem?_append_right (by omega), show t + 1 - ptr.length = 0 by omega] at hb
          obtain rfl : a + w + 1 = b := by simpa using hb
          exact ⟨by omega, by omega, w3, fun hb1 hb2 => w4 hb1 (by omega)⟩
        · rw [List.getElem?_eq_none (by simp; omega)] at hb
          cases hb
    · rw [if_neg (by simpa using hc)]
      obtain rfl : col = g.n := by omega
      exact ⟨ptr, h3, h4, h5, h6⟩
  · exact ⟨by simp, by simp, [0], by simp, by simp, by simp, by intro t a b _ hb; simp at hb⟩
  · rintro ⟨col, l⟩ hI
    rw [wp_ok]
    exact hI

theorem supernodesUpper_wp {g : Csc} (h : g.WF) (limit : Int) :
    wp (supernodes g.n limit false g.p g.i) (IsSupernodesDown (NestedUpper g) g.n (blockLimit g.n limit)) := by
  unfold supernodes
  simp only [Bool.false_eq_true, if_false]
  set lim' : Int := if limit = 0 then (g.n : Int) else limit with hlim'
  have hl : ((blockLimit g.n limit - 1 : Nat) : Int) = max lim' 0 := by
    rw [hlim']; unfold blockLimit; split <;> omega
  have hbl : 1 ≤ blockLimit g.n limit := by unfold blockLimit; omega
  simp only [wp_bind]
  refine wp_mono (Q := fun s => IsSupernodesDown (NestedUpper g) g.n (blockLimit g.n limit) (s.2 ++ [-1]))
    (whileF_wp (fun (s : Nat × List Int) => s.2.length + s.1 ≤ g.n ∧
      (s.2 ++ [(s.1 : Int) - 1])[0]? = some ((g.n : Int) - 1) ∧
      ∀ (t : Nat) (a b : Int), (s.2 ++ [(s.1 : Int) - 1])[t]? = some a → (s.2 ++ [(s.1 : Int) - 1])[t + 1]? = some b →
        b < a ∧ 0 ≤ a ∧ a - b ≤ blockLimit g.n limit ∧ (∀ c : Nat, b < c → c < a → NestedUpper g a.toNat c) ∧
        (0 ≤ b → a - b < blockLimit g.n limit → ¬ NestedUpper g a.toNat b.toNat))
    (fun s => s.1) ?_ g.n _ (by simp) ?_) ?_
  · rintro ⟨col, l⟩ ⟨h1, h4, h6⟩
    dsimp only at h1 h4 h6 ⊢
    rw [wp_ok]
    by_cases hc : 0 < col
    · rw [if_pos (by simpa using hc)]
      refine ⟨by omega, ?_⟩
      rw [if_neg (by omega)]
      simp only [wp_bind]
      refine wp_mono (simUpper_wp h hl (show col - 1 < g.n by omega)) ?_
      rintro w ⟨w1, w2, w3, w4⟩
      rw [wp_ok]
      refine ⟨⟨by simp; omega, ?_, ?_⟩, by dsimp only; omega⟩
      · dsimp only
        rw [List.getElem?_append_left (by simp)]; exact h4
      · intro t a b ha hb
        dsimp only at ha hb
        rcases Nat.lt_trichotomy (t + 1) (l.length + 1) with ht | ht | ht
        · rw [List.getElem?_append_left (by simp; omega)] at ha hb
          exact h6 t a b ha hb
        · rw [List.getElem?_append_left (by simp; omega), List.getElem?_append_right (by omega),
            show t - l.length = 0 by omega] at ha
          rw [List.getElem?_append_right (by simp; omega),
            show t + 1 - (l ++ [(col : Int) - 1]).length = 0 by simp; omega] at hb
          simp only [List.getElem?_cons_zero, Option.some.injEq] at ha hb
          have hat : a.toNat = col - 1 := by omega
          rw [hat]
          refine ⟨by omega, by omega, by omega, ?_, ?_⟩
          · intro c hc1 hc2
            exact w3 c (by omega) (by omega)
          · intro hb1 hb2
            rw [show b.toNat = col - 1 - 1 - w by omega]
            exact w4 (by omega) (by omega)
        · rw [List.getElem?_eq_none (by simp; omega)] at hb
          cases hb
    · rw [if_neg (by simpa using hc)]
      obtain rfl : col = 0 := by omega
      exact ⟨h4, by simp, h6⟩
  · exact ⟨by simp, by simp, by intro t a b _ hb; simp at hb⟩
  · rintro ⟨col, l⟩ hI
    rw [wp_ok]
    exact hI

end Verif.Super
