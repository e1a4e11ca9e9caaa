import Verif.Model.CC
import Verif.ResLemmas
import Verif.Spec.Comp
import Mathlib.Data.List.Basic
import Mathlib.Data.List.Nodup
import Mathlib.Data.Prod.Lex
import Mathlib.Order.WellFounded

/-! # Concurrent connected components: invariants -/

namespace Verif.CC
open Res

/-! ### Sums over threads -/

/-- Sum of `f` over `0..n-1`. -/
def sumN : Nat → (Nat → Nat) → Nat
  | 0, _ => 0
  | n + 1, f => sumN n f + f n

theorem sumN_le {n : Nat} {f g : Nat → Nat} (h : ∀ k, k < n → f k ≤ g k) :
    sumN n f ≤ sumN n g := by
  induction n with
  | zero => exact Nat.le_refl _
  | succ n ih =>
    have h1 := ih (fun k hk => h k (by omega))
    have h2 := h n (by omega)
    simp only [sumN]; omega

theorem sumN_lt {n : Nat} {f g : Nat → Nat} (h : ∀ k, k < n → f k ≤ g k) {k : Nat} (hk : k < n)
    (hl : f k < g k) : sumN n f < sumN n g := by
  induction n with
  | zero => omega
  | succ n ih =>
    have h2 := h n (by omega)
    simp only [sumN]
    by_cases hkn : k = n
    · subst hkn
      have := sumN_le (n := k) (f := f) (g := g) (fun j hj => h j (by omega))
      omega
    · have := ih (fun j hj => h j (by omega)) (by omega)
      omega

theorem sumN_bound {n : Nat} {f : Nat → Nat} (h : ∀ k, k < n → f k ≤ 1) : sumN n f ≤ n := by
  induction n with
  | zero => exact Nat.le_refl _
  | succ n ih =>
    have h1 := ih (fun k hk => h k (by omega))
    have h2 := h n (by omega)
    simp only [sumN]; omega

/-! ### Setting -/

structure Setup where
  e : Env
  n : Nat
  adj : Nat → List Nat

namespace Setup
variable (S : Setup)

def N : Nat := S.e.nodes.length
def nd (k : Nat) : Nat := S.e.nodes.getD k 0
def E (u v : Nat) : Prop := u ∈ S.e.nodes ∧ v ∈ S.adj u
def C (u v : Nat) : Prop := Relation.EqvGen S.E u v
/-- label of position `k` -/
def L (lab : List Int) (k : Nat) : Int := lab.getD (S.nd k) 0

structure Ok : Prop where
  nodup : S.e.nodes.Nodup
  lt : ∀ u ∈ S.e.nodes, u < S.n
  hooks : S.e.hooks = S.e.nodes.map (fun u => Thr.hNext u (S.adj u))
  adjIn : ∀ u ∈ S.e.nodes, ∀ v ∈ S.adj u, v ∈ S.e.nodes

/-- A good label for position `k`. -/
def Good (k : Nat) (l : Int) : Prop := 0 ≤ l ∧ l ≤ k ∧ S.C (S.nd l.toNat) (S.nd k)

structure LabOk (lab : List Int) : Prop where
  len : lab.length = S.n
  good : ∀ k, k < S.N → S.Good k (S.L lab k)

def Star (lab : List Int) : Prop :=
  ∀ k, k < S.N → S.L lab (S.L lab k).toNat = S.L lab k

def Frame (F lab : List Int) : Prop := ∀ v, v ∉ S.e.nodes → lab.getD v 0 = F.getD v 0

/-- hooking pair -/
def Pair (hi lo : Int) : Prop := 0 ≤ lo ∧ lo < hi ∧ hi < S.N ∧ S.C (S.nd lo.toNat) (S.nd hi.toNat)

def ThrHook (lab0 : List Int) (change : Bool) (k : Nat) : Thr → Prop
  | .hNext u vs => u = S.nd k ∧ ∃ pre, S.adj u = pre ++ vs ∧
      (change = false → ∀ v ∈ pre, lab0.getD u 0 = lab0.getD v 0)
  | .hU u v vs cu => u = S.nd k ∧ S.Good k cu ∧ ∃ pre, S.adj u = pre ++ v :: vs ∧
      (change = false → cu = lab0.getD u 0 ∧ ∀ v ∈ pre, lab0.getD u 0 = lab0.getD v 0)
  | .hRoot u vs hi lo => u = S.nd k ∧ S.Pair hi lo ∧ (∃ pre, S.adj u = pre ++ vs) ∧
      (change = false → S.L lab0 hi.toNat = hi)
  | .hFlag u vs hi lo => u = S.nd k ∧ S.Pair hi lo ∧ (∃ pre, S.adj u = pre ++ vs) ∧
      S.L lab0 hi.toNat = hi
  | .hStore u vs hi lo => u = S.nd k ∧ S.Pair hi lo ∧ (∃ pre, S.adj u = pre ++ vs) ∧
      S.L lab0 hi.toNat = hi ∧ change = true
  | _ => False

structure HookInv (F lab0 : List Int) (s : State) : Prop where
  phase : s.phase = .hook
  ok0 : S.LabOk lab0
  star0 : S.Star lab0
  ok : S.LabOk s.lab
  roots : ∀ k, k < S.N → S.L s.lab k = k → S.L lab0 k = k
  frame : S.Frame F s.lab
  tlen : s.thr.length = S.N
  thr : ∀ (k : Nat) (t : Thr), s.thr[k]? = some t → S.ThrHook lab0 s.change k t
  quiet : s.change = false → s.lab = lab0
  lost : s.change = true → ∃ r, r < S.N ∧ S.L lab0 r = r ∧
    (S.L s.lab r ≠ r ∨ ∃ (k u : Nat) (vs : List Nat) (lo : Int),
      s.thr[k]? = some (.hStore u vs (r : Int) lo))

def ThrJump (lab : List Int) (k : Nat) : Thr → Prop
  | .j0 u => u = S.nd k
  | .j1 u a => u = S.nd k ∧ a = S.L lab k
  | .j2 u a a' => u = S.nd k ∧ a = S.L lab k ∧ a' = S.L lab k
  | .j3 u => u = S.nd k ∧ S.L lab (S.L lab k).toNat < S.L lab k
  | .j4 u a => u = S.nd k ∧ a = S.L lab k ∧ S.L lab (S.L lab k).toNat < S.L lab k
  | .j5 u b => u = S.nd k ∧ b < S.L lab k ∧ S.L lab k < k ∧ S.Good k b
      ∧ S.L lab (S.L lab k).toNat < S.L lab k
  | .fin => S.L lab (S.L lab k).toNat = S.L lab k
  | _ => False

def EdgesEq (lab : List Int) : Prop :=
  ∀ k, k < S.N → ∀ v ∈ S.adj (S.nd k), lab.getD (S.nd k) 0 = lab.getD v 0

structure JumpInv (F lab0 : List Int) (s : State) : Prop where
  phase : s.phase = .jump
  ok : S.LabOk s.lab
  roots : ∀ k, k < S.N → S.L s.lab k = k → S.L lab0 k = k
  frame : S.Frame F s.lab
  tlen : s.thr.length = S.N
  thr : ∀ (k : Nat) (t : Thr), s.thr[k]? = some t → S.ThrJump s.lab k t
  quiet : s.change = false → s.lab = lab0 ∧ S.Star lab0 ∧ S.EdgesEq lab0
  lost : s.change = true → ∃ r, r < S.N ∧ S.L lab0 r = r ∧ S.L s.lab r ≠ r

structure DoneInv (F : List Int) (s : State) : Prop where
  phase : s.phase = .done
  ok : S.LabOk s.lab
  frame : S.Frame F s.lab
  star : S.Star s.lab
  edges : S.EdgesEq s.lab
  fin : s.thr.all Thr.finished = true

def ThrInit (lab : List Int) (k : Nat) : Thr → Prop
  | .initSet u i => u = S.nd k ∧ i = k
  | .initChk u i => u = S.nd k ∧ i = k ∧ S.L lab k = -1
  | .fin => S.L lab k = k
  | _ => False

structure InitInv (F : List Int) (m : Nat) (s : State) : Prop where
  phase : s.phase = .init
  len : s.lab.length = S.n
  mle : m ≤ S.N
  old : ∀ k, k < m → S.Good k (S.L s.lab k) ∧ S.L s.lab (S.L s.lab k).toNat = S.L s.lab k
  frame : S.Frame F s.lab
  tlen : s.thr.length = S.N - m
  thr : ∀ (j : Nat) (t : Thr), s.thr[j]? = some t → S.ThrInit s.lab (m + j) t

/-! ### Basic facts -/

variable {S}

theorem nd_mem {k : Nat} (hk : k < S.N) : S.nd k ∈ S.e.nodes := by
  unfold nd N at *
  simp [hk]

theorem nd_lt (h : S.Ok) {k : Nat} (hk : k < S.N) : S.nd k < S.n := h.lt _ (nd_mem hk)

theorem nd_inj (h : S.Ok) {k l : Nat} (hk : k < S.N) (hl : l < S.N) (he : S.nd k = S.nd l) :
    k = l := by
  have hk' : k < S.e.nodes.length := hk
  have hl' : l < S.e.nodes.length := hl
  unfold nd at he
  rw [List.getD_eq_getElem?_getD, List.getD_eq_getElem?_getD, List.getElem?_eq_getElem hk',
    List.getElem?_eq_getElem hl'] at he
  exact (List.Nodup.getElem_inj_iff h.nodup).1 he

theorem exists_pos {u : Nat} (hu : u ∈ S.e.nodes) : ∃ k, k < S.N ∧ S.nd k = u := by
  obtain ⟨k, hk, rfl⟩ := List.mem_iff_getElem.1 hu
  exact ⟨k, hk, by simp [nd, hk]⟩

theorem rd_nd {k : Nat} (hk : k < S.N) : rd S.e.nodes k = ok (S.nd k) := rd_getD 0 hk

theorem rdZ_nd {l : Int} (h0 : 0 ≤ l) (hk : l < S.N) :
    rdZ S.e.nodes l = ok (S.nd l.toNat) := by
  unfold rdZ
  rw [if_neg (by omega)]
  exact rd_nd (by omega)

theorem rd_lab (h : S.Ok) {lab : List Int} (hl : lab.length = S.n) {k : Nat} (hk : k < S.N) :
    rd lab (S.nd k) = ok (S.L lab k) := rd_getD 0 (by rw [hl]; exact nd_lt h hk)

/-- label after a store -/
theorem L_set (h : S.Ok) {lab : List Int} (hl : lab.length = S.n) {r k : Nat} (hr : r < S.N)
    (hk : k < S.N) (v : Int) :
    S.L (lab.set (S.nd r) v) k = if k = r then v else S.L lab k := by
  unfold L
  rw [getD_set, hl]
  by_cases hkr : k = r
  · subst hkr; simp [nd_lt h hk]
  · rw [if_neg hkr, if_neg]
    rintro ⟨he, _⟩
    exact hkr (nd_inj h hk hr he.symm)

theorem frame_set {F lab : List Int} {r : Nat} (hr : r < S.N) {v : Int}
    (hf : S.Frame F lab) : S.Frame F (lab.set (S.nd r) v) := by
  intro w hw
  rw [getD_set, if_neg, hf w hw]
  rintro ⟨he, _⟩
  exact hw (he ▸ nd_mem hr)

theorem C.refl (u : Nat) : S.C u u := Relation.EqvGen.refl u
theorem C.symm {u v : Nat} (h : S.C u v) : S.C v u := Relation.EqvGen.symm _ _ h
theorem C.trans {u v w : Nat} (h : S.C u v) (h' : S.C v w) : S.C u w :=
  Relation.EqvGen.trans _ _ _ h h'

theorem Good.lt {k : Nat} {l : Int} (h : S.Good k l) (hk : k < S.N) : l < S.N := by
  have := h.2.1; omega

theorem Good.toNat_lt {k : Nat} {l : Int} (h : S.Good k l) (hk : k < S.N) : l.toNat < S.N := by
  have := h.2.1; have := h.1; omega

theorem Good.self (k : Nat) : S.Good k (k : Int) :=
  ⟨by omega, by omega, by simpa using C.refl _⟩

/-- storing a good label keeps the labels good -/
theorem LabOk.set (h : S.Ok) {lab : List Int} (hl : S.LabOk lab) {r : Nat} (hr : r < S.N)
    {v : Int} (hv : S.Good r v) : S.LabOk (lab.set (S.nd r) v) := by
  refine ⟨by rw [List.length_set]; exact hl.len, fun k hk => ?_⟩
  rw [L_set h hl.len hr hk]
  split
  · next he => subst he; exact hv
  · exact hl.good k hk

theorem star_root {lab : List Int} (hs : S.Star lab) {k : Nat} (hk : k < S.N)
    {l : Int} (he : l = S.L lab k) : S.L lab l.toNat = l := by
  subst he; exact hs k hk

/-- the label of a neighbour is the label of a position -/
theorem adj_pos (h : S.Ok) {k v : Nat} (hk : k < S.N) (hv : v ∈ S.adj (S.nd k)) :
    ∃ j, j < S.N ∧ S.nd j = v ∧ S.C (S.nd k) v := by
  have := h.adjIn _ (nd_mem hk) v hv
  obtain ⟨j, hj, he⟩ := exists_pos this
  exact ⟨j, hj, he, Relation.EqvGen.rel _ _ ⟨nd_mem hk, hv⟩⟩

/-- other threads are not concerned by a change of the flag -/
theorem ThrHook.true {lab0 : List Int} {c : Bool} {k : Nat} {t : Thr}
    (h : S.ThrHook lab0 c k t) : S.ThrHook lab0 true k t := by
  cases t with
  | hNext u vs =>
    obtain ⟨h1, pre, h2, _⟩ := h
    exact ⟨h1, pre, h2, by simp⟩
  | hU u v vs cu =>
    obtain ⟨h1, h2, pre, h3, _⟩ := h
    exact ⟨h1, h2, pre, h3, by simp⟩
  | hRoot u vs hi lo =>
    obtain ⟨h1, h2, h3, _⟩ := h
    exact ⟨h1, h2, h3, by simp⟩
  | hFlag u vs hi lo => exact h
  | hStore u vs hi lo =>
    obtain ⟨h1, h2, h3, h4, _⟩ := h
    exact ⟨h1, h2, h3, h4, rfl⟩
  | _ => exact h

/-! ### Costs -/

def hcost : Thr → Nat
  | .hNext _ vs => 5 * vs.length
  | .hU _ _ vs _ => 5 * vs.length + 4
  | .hRoot _ vs _ _ => 5 * vs.length + 3
  | .hFlag _ vs _ _ => 5 * vs.length + 2
  | .hStore _ vs _ _ => 5 * vs.length + 1
  | _ => 0

def hsum (S : Setup) (thr : List Thr) : Nat := sumN S.N (fun k => hcost (thr.getD k .fin))

theorem getD_set_thr (l : List Thr) (k j : Nat) (t : Thr) (hk : k < l.length) :
    (l.set k t).getD j .fin = if j = k then t else l.getD j .fin := by
  rw [getD_set]
  by_cases h : j = k
  · subst h; simp [hk]
  · rw [if_neg h, if_neg]; omega

theorem getD_of_some {l : List Thr} {k : Nat} {t : Thr} (h : l[k]? = some t) :
    l.getD k .fin = t := by rw [List.getD_eq_getElem?_getD, h]; rfl

theorem lt_of_some {α : Type} {l : List α} {k : Nat} {t : α} (h : l[k]? = some t) :
    k < l.length := (List.getElem?_eq_some_iff.1 h).1

theorem hsum_lt {thr : List Thr} {k : Nat} {t t' : Thr} (hl : thr.length = S.N)
    (h : thr[k]? = some t) (hc : hcost t' < hcost t) : hsum S (thr.set k t') < hsum S thr := by
  have hk := lt_of_some h
  refine sumN_lt (k := k) ?_ (by omega) ?_
  · intro j _
    rw [getD_set_thr _ _ _ _ hk]
    split
    · next he => subst he; rw [getD_of_some h]; omega
    · exact Nat.le_refl _
  · rw [getD_set_thr _ _ _ _ hk, if_pos rfl, getD_of_some h]; exact hc

theorem get_set {thr : List Thr} {k j : Nat} {t t' : Thr} (h : (thr.set k t')[j]? = some t) :
    (j = k ∧ t = t') ∨ (j ≠ k ∧ thr[j]? = some t) := by
  rw [List.getElem?_set] at h
  by_cases hk : k = j
  · subst hk
    rw [if_pos rfl] at h
    split at h
    · simp at h; exact .inl ⟨rfl, h.symm⟩
    · simp at h
  · rw [if_neg hk] at h; exact .inr ⟨fun h' => hk h'.symm, h⟩

/-! ### Hooking -/

/-- A step of a thread that neither stores a label nor sets the flag. -/
theorem HookInv.local {F lab0 : List Int} {s : State} (hI : S.HookInv F lab0 s) {k : Nat}
    {t t' : Thr} (ht : s.thr[k]? = some t) (hns : ∀ u vs hi lo, t ≠ .hStore u vs hi lo)
    (h' : S.ThrHook lab0 s.change k t') :
    S.HookInv F lab0 { s with thr := s.thr.set k t' } := by
  refine { hI with tlen := by rw [List.length_set]; exact hI.tlen, thr := ?_, lost := ?_ }
  · intro j x hx
    rcases get_set hx with ⟨rfl, rfl⟩ | ⟨_, hx⟩
    · exact h'
    · exact hI.thr j x hx
  · intro hc
    obtain ⟨r, h1, h2, h3⟩ := hI.lost hc
    refine ⟨r, h1, h2, ?_⟩
    rcases h3 with h3 | ⟨j, u, vs, lo, h3⟩
    · exact .inl h3
    · refine .inr ⟨j, u, vs, lo, ?_⟩
      have : j ≠ k := by
        rintro rfl
        rw [ht] at h3
        exact hns _ _ _ _ (Option.some.inj h3)
      show (s.thr.set k t')[j]? = _
      rw [List.getElem?_set, if_neg (fun h => this h.symm)]
      exact h3

theorem hook_step (h : S.Ok) {F lab0 : List Int} {s : State} (hI : S.HookInv F lab0 s) {k : Nat}
    {t : Thr} (ht : s.thr[k]? = some t) (hf : t.finished = false) :
    wp (exec S.e t s.lab s.change) (fun r =>
      S.HookInv F lab0 { s with lab := r.2.1, change := r.2.2, thr := s.thr.set k r.1 } ∧
      hsum S (s.thr.set k r.1) < hsum S s.thr) := by
  have hk : k < S.N := by rw [← hI.tlen]; exact lt_of_some ht
  have hT := hI.thr k t ht
  have hlen := hI.ok.len
  cases t with
  | hNext u vs =>
    cases vs with
    | nil => simp [Thr.finished] at hf
    | cons v vs =>
      obtain ⟨rfl, pre, hpre, hq⟩ := hT
      simp only [exec, rd_lab h hlen hk, ok_bind, wp_ok]
      refine ⟨hI.local ht (by simp) ⟨rfl, hI.ok.good k hk, pre, hpre, fun hc => ⟨?_, hq hc⟩⟩,
        hsum_lt hI.tlen ht (by simp [hcost]; omega)⟩
      rw [← hI.quiet hc]; rfl
  | hU u v vs cu =>
    obtain ⟨rfl, hg, pre, hpre, hq⟩ := hT
    have hv : v ∈ S.adj (S.nd k) := by rw [hpre]; simp
    obtain ⟨j, hj, rfl, hC⟩ := adj_pos h hk hv
    simp only [exec, rd_lab h hlen hj, ok_bind]
    have hgj := hI.ok.good j hj
    by_cases he : cu = S.L s.lab j
    · rw [if_pos he]
      simp only [wp_ok]
      refine ⟨hI.local ht (by simp) ⟨rfl, pre ++ [S.nd j], by simp [hpre], fun hc => ?_⟩,
        hsum_lt hI.tlen ht (by simp [hcost])⟩
      intro w hw
      rcases List.mem_append.1 hw with hw | hw
      · exact (hq hc).2 w hw
      · rw [List.mem_singleton.1 hw, ← (hq hc).1, he, ← hI.quiet hc]; rfl
    · rw [if_neg he]
      simp only [wp_ok]
      have hcc : S.C (S.nd cu.toNat) (S.nd (S.L s.lab j).toNat) :=
        hg.2.2.trans (hC.trans hgj.2.2.symm)
      have hlt1 := hg.lt hk
      have hlt2 := hgj.lt hj
      refine ⟨hI.local ht (by simp) ⟨rfl, ?_, ⟨pre ++ [S.nd j], by simp [hpre]⟩, fun hc => ?_⟩,
        hsum_lt hI.tlen ht (by simp [hcost])⟩
      · have g1 := hg.1
        have g2 := hgj.1
        by_cases hgt : cu > S.L s.lab j
        · rw [if_pos hgt]
          have e : cu + (S.L s.lab j - cu) = S.L s.lab j := by omega
          rw [e]
          exact ⟨g2, hgt, hlt1, hcc.symm⟩
        · rw [if_neg hgt]
          have e : cu + (S.L s.lab j - S.L s.lab j) = cu := by omega
          rw [e]
          exact ⟨g1, by omega, hlt2, hcc⟩
      · have hlab := hI.quiet hc
        split
        · exact star_root hI.star0 hk (hq hc).1
        · exact star_root hI.star0 hj (by rw [hlab])
  | hRoot u vs hi lo =>
    obtain ⟨rfl, hp, hpre, hq⟩ := hT
    have hp1 := hp.1
    have hp2 := hp.2.1
    have hp3 := hp.2.2.1
    have hiN : hi.toNat < S.N := by omega
    simp only [exec, rdZ_nd (by omega) hp3, rd_lab h hlen hiN, ok_bind]
    by_cases he : hi = S.L s.lab hi.toNat
    · rw [if_pos he]
      simp only [wp_ok]
      refine ⟨hI.local ht (by simp) ⟨rfl, hp, hpre, ?_⟩, hsum_lt hI.tlen ht (by simp [hcost])⟩
      have := hI.roots hi.toNat hiN (by omega)
      omega
    · rw [if_neg he]
      simp only [wp_ok]
      obtain ⟨pre, hpre⟩ := hpre
      refine ⟨hI.local ht (by simp) ⟨rfl, pre, hpre, fun hc => ?_⟩,
        hsum_lt hI.tlen ht (by simp [hcost])⟩
      exact absurd (by rw [hI.quiet hc]; exact (hq hc).symm) he
  | hFlag u vs hi lo =>
    obtain ⟨rfl, hp, hpre, hq⟩ := hT
    simp only [exec, wp_ok]
    refine ⟨?_, hsum_lt hI.tlen ht (by simp [hcost])⟩
    have hp1 := hp.1
    have hp2 := hp.2.1
    have hp3 := hp.2.2.1
    refine { hI with
      tlen := by rw [List.length_set]; exact hI.tlen, thr := ?_, quiet := by simp, lost := ?_ }
    · intro j x hx
      rcases get_set hx with ⟨rfl, rfl⟩ | ⟨_, hx⟩
      · exact ⟨rfl, hp, hpre, hq, rfl⟩
      · exact (hI.thr j x hx).true
    · intro _
      refine ⟨hi.toNat, by omega, by omega, .inr ⟨k, S.nd k, vs, lo, ?_⟩⟩
      show (s.thr.set k _)[k]? = _
      rw [List.getElem?_set_self (lt_of_some ht)]
      have : ((hi.toNat : Nat) : Int) = hi := by omega
      rw [this]
  | hStore u vs hi lo =>
    obtain ⟨rfl, hp, ⟨pre, hpre⟩, hq, hc⟩ := hT
    have hp1 := hp.1
    have hp2 := hp.2.1
    have hp3 := hp.2.2.1
    have hiN : hi.toNat < S.N := by omega
    simp only [exec, rdZ_nd (by omega) hp3, ok_bind]
    rw [wr_eq (by rw [hlen]; exact nd_lt h hiN)]
    simp only [ok_bind, wp_ok]
    refine ⟨?_, hsum_lt hI.tlen ht (by simp [hcost])⟩
    have hok := hI.ok.set h hiN (v := lo) ⟨hp1, by omega, hp.2.2.2⟩
    refine { phase := hI.phase, ok0 := hI.ok0, star0 := hI.star0, ok := hok,
             roots := ?_, frame := frame_set hiN hI.frame,
             tlen := by rw [List.length_set]; exact hI.tlen, thr := ?_,
             quiet := by intro h'; rw [hc] at h'; simp at h', lost := ?_ }
    · intro j hj he
      rw [L_set h hlen hiN hj] at he
      split at he
      · omega
      · exact hI.roots j hj he
    · intro j x hx
      rcases get_set hx with ⟨rfl, rfl⟩ | ⟨_, hx⟩
      · exact ⟨rfl, pre, hpre, by intro h'; rw [hc] at h'; simp at h'⟩
      · exact hI.thr j x hx
    · intro _
      refine ⟨hi.toNat, hiN, by omega, .inl ?_⟩
      rw [L_set h hlen hiN hiN, if_pos rfl]
      omega
  | _ => exact hT.elim

/-! ### Pointer jumping -/

def jcost (lab : List Int) : Thr → Nat
  | .j0 u => 6 * (lab.getD u 0).toNat + 6
  | .j1 u _ => 6 * (lab.getD u 0).toNat + 5
  | .j2 u _ _ => 6 * (lab.getD u 0).toNat + 4
  | .j3 u => 6 * (lab.getD u 0).toNat + 3
  | .j4 u _ => 6 * (lab.getD u 0).toNat + 2
  | .j5 u _ => 6 * (lab.getD u 0).toNat + 1
  | _ => 0

def jsum (S : Setup) (lab : List Int) (thr : List Thr) : Nat :=
  sumN S.N (fun k => jcost lab (thr.getD k .fin))

theorem jsum_lt {lab : List Int} {thr : List Thr} {k : Nat} {t t' : Thr} (hl : thr.length = S.N)
    (h : thr[k]? = some t) (hc : jcost lab t' < jcost lab t) :
    jsum S lab (thr.set k t') < jsum S lab thr := by
  have hk := lt_of_some h
  refine sumN_lt (k := k) ?_ (by omega) ?_
  · intro j _
    rw [getD_set_thr _ _ _ _ hk]
    split
    · next he => subst he; rw [getD_of_some h]; omega
    · exact Nat.le_refl _
  · rw [getD_set_thr _ _ _ _ hk, if_pos rfl, getD_of_some h]; exact hc

theorem JumpInv.local {F lab0 : List Int} {s : State} (hI : S.JumpInv F lab0 s) {k : Nat}
    {t' : Thr} (h' : S.ThrJump s.lab k t') :
    S.JumpInv F lab0 { s with thr := s.thr.set k t' } := by
  refine { hI with tlen := by rw [List.length_set]; exact hI.tlen, thr := ?_ }
  intro j x hx
  rcases get_set hx with ⟨rfl, rfl⟩ | ⟨_, hx⟩
  · exact h'
  · exact hI.thr j x hx

/-- The node of a jump thread. -/
theorem ThrJump.jcost_set (h : S.Ok) {lab : List Int} (hl : lab.length = S.n) {j k : Nat}
    (hj : j < S.N) (hk : k < S.N) (hne : j ≠ k) {t : Thr} (ht : S.ThrJump lab j t) (b : Int) :
    jcost (lab.set (S.nd k) b) t = jcost lab t := by
  have : (lab.set (S.nd k) b).getD (S.nd j) 0 = lab.getD (S.nd j) 0 := by
    have := L_set h hl hk hj b
    rw [if_neg hne] at this
    exact this
  cases t <;> first | rfl | skip
  case j0 u => have e : u = S.nd j := ht; subst e; simp only [jcost, this]
  case j1 u a => have e : u = S.nd j := ht.1; subst e; simp only [jcost, this]
  case j2 u a a' => have e : u = S.nd j := ht.1; subst e; simp only [jcost, this]
  case j3 u => have e : u = S.nd j := ht.1; subst e; simp only [jcost, this]
  case j4 u a => have e : u = S.nd j := ht.1; subst e; simp only [jcost, this]
  case j5 u b => have e : u = S.nd j := ht.1; subst e; simp only [jcost, this]

/-- A store at position `k` keeps the invariant of the other threads. -/
theorem ThrJump.set (h : S.Ok) {lab : List Int} (hok : S.LabOk lab) {j k : Nat}
    (hj : j < S.N) (hk : k < S.N) (hne : j ≠ k) {t : Thr} (ht : S.ThrJump lab j t) {b : Int}
    (hb : b < S.L lab k) (hkk : S.L lab k < k) : S.ThrJump (lab.set (S.nd k) b) j t := by
  have hl := hok.len
  have e1 : S.L (lab.set (S.nd k) b) j = S.L lab j := by rw [L_set h hl hk hj, if_neg hne]
  have hLj := (hok.good j hj).toNat_lt hj
  have hLj0 := (hok.good j hj).1
  have e2 : S.L (lab.set (S.nd k) b) (S.L lab j).toNat ≤ S.L lab (S.L lab j).toNat := by
    rw [L_set h hl hk hLj]
    split
    · next he => rw [he]; omega
    · exact Int.le_refl _
  cases t with
  | fin =>
    simp only [ThrJump] at ht ⊢
    rw [e1, L_set h hl hk hLj, if_neg, ht]
    intro he
    rw [he] at ht
    omega
  | j0 u => exact ht
  | j1 u a => simp only [ThrJump, e1]; exact ht
  | j2 u a a' => simp only [ThrJump, e1]; exact ht
  | j3 u =>
    simp only [ThrJump, e1] at ht ⊢
    exact ⟨ht.1, by omega⟩
  | j4 u a =>
    simp only [ThrJump, e1] at ht ⊢
    exact ⟨ht.1, ht.2.1, by omega⟩
  | j5 u b' =>
    simp only [ThrJump, e1] at ht ⊢
    exact ⟨ht.1, ht.2.1, ht.2.2.1, ht.2.2.2.1, by omega⟩
  | _ => exact ht.elim

theorem jump_step (h : S.Ok) {F lab0 : List Int} {s : State} (hI : S.JumpInv F lab0 s) {k : Nat}
    {t : Thr} (ht : s.thr[k]? = some t) (hf : t.finished = false) :
    wp (exec S.e t s.lab s.change) (fun r =>
      S.JumpInv F lab0 { s with lab := r.2.1, change := r.2.2, thr := s.thr.set k r.1 } ∧
      jsum S r.2.1 (s.thr.set k r.1) < jsum S s.lab s.thr) := by
  have hk : k < S.N := by rw [← hI.tlen]; exact lt_of_some ht
  have hT := hI.thr k t ht
  have hlen := hI.ok.len
  have hg := hI.ok.good k hk
  have hgl := hg.toNat_lt hk
  cases t with
  | fin => simp [Thr.finished] at hf
  | j0 u =>
    have e : u = S.nd k := hT
    subst e
    simp only [exec, rd_lab h hlen hk, ok_bind, wp_ok]
    exact ⟨hI.local ⟨rfl, rfl⟩, jsum_lt hI.tlen ht (by simp [jcost])⟩
  | j1 u a =>
    obtain ⟨rfl, rfl⟩ := hT
    simp only [exec, rd_lab h hlen hk, ok_bind, wp_ok]
    exact ⟨hI.local ⟨rfl, rfl, rfl⟩, jsum_lt hI.tlen ht (by simp [jcost])⟩
  | j2 u a a' =>
    obtain ⟨rfl, rfl, rfl⟩ := hT
    simp only [exec, rdZ_nd hg.1 (hg.lt hk), rd_lab h hlen hgl, ok_bind]
    have hg2 := hI.ok.good _ hgl
    by_cases he : S.L s.lab k = S.L s.lab (S.L s.lab k).toNat
    · rw [if_neg (by simpa using he)]
      simp only [wp_ok]
      exact ⟨hI.local he.symm, jsum_lt hI.tlen ht (by simp [jcost])⟩
    · rw [if_pos he]
      simp only [wp_ok]
      refine ⟨hI.local ⟨rfl, ?_⟩, jsum_lt hI.tlen ht (by simp [jcost])⟩
      have := hg2.2.1
      have := hg.1
      omega
  | j3 u =>
    obtain ⟨rfl, hlt⟩ := hT
    simp only [exec, rd_lab h hlen hk, ok_bind, wp_ok]
    exact ⟨hI.local ⟨rfl, rfl, hlt⟩, jsum_lt hI.tlen ht (by simp [jcost])⟩
  | j4 u a =>
    obtain ⟨rfl, rfl, hlt⟩ := hT
    simp only [exec, rdZ_nd hg.1 (hg.lt hk), rd_lab h hlen hgl, ok_bind, wp_ok]
    have hg2 := hI.ok.good _ hgl
    refine ⟨hI.local ⟨rfl, hlt, ?_, ⟨hg2.1, ?_, hg2.2.2.trans hg.2.2⟩, hlt⟩,
      jsum_lt hI.tlen ht (by simp [jcost])⟩
    · have h1 := hg.2.1
      have h2 : S.L s.lab k ≠ k := by
        intro he
        rw [he] at hlt
        simp only [Int.toNat_natCast] at hlt
        rw [he] at hlt
        omega
      omega
    · have h1 := hg.2.1
      omega
  | j5 u b =>
    obtain ⟨rfl, hb, hkk, hgb, hlt⟩ := hT
    simp only [exec]
    rw [wr_eq (by rw [hlen]; exact nd_lt h hk)]
    simp only [ok_bind, wp_ok]
    refine ⟨{ phase := hI.phase, ok := hI.ok.set h hk hgb, roots := ?_,
              frame := frame_set hk hI.frame,
              tlen := by rw [List.length_set]; exact hI.tlen, thr := ?_, quiet := ?_,
              lost := ?_ }, ?_⟩
    · intro j hj he
      rw [L_set h hlen hk hj] at he
      split at he
      · omega
      · exact hI.roots j hj he
    · intro j x hx
      rcases get_set hx with ⟨rfl, rfl⟩ | ⟨hne, hx⟩
      · rfl
      · have hj : j < S.N := by rw [← hI.tlen]; exact lt_of_some hx
        exact (hI.thr j x hx).set h hI.ok hj hk hne hb hkk
    · intro hc
      obtain ⟨h1, h2, _⟩ := hI.quiet hc
      have := h2 k hk
      rw [← h1] at this
      omega
    · intro hc
      obtain ⟨r, h1, h2, h3⟩ := hI.lost hc
      refine ⟨r, h1, h2, ?_⟩
      rw [L_set h hlen hk h1]
      split
      · omega
      · exact h3
    · refine sumN_lt (k := k) ?_ hk ?_
      · intro j hj
        rw [getD_set_thr _ _ _ _ (lt_of_some ht)]
        split
        · next he =>
          subst he
          rw [getD_of_some ht]
          have e := L_set h hlen hk hk b
          rw [if_pos rfl] at e
          unfold L at e
          simp only [jcost, e]
          have h0 := hgb.1
          unfold L at hb
          omega
        · next hne =>
          have hx : s.thr[j]? = some (s.thr.getD j .fin) := by
            have : j < s.thr.length := by rw [hI.tlen]; exact hj
            rw [List.getD_eq_getElem?_getD, List.getElem?_eq_getElem this]; rfl
          rw [ThrJump.jcost_set h hlen hj hk hne (hI.thr j _ hx)]
      · rw [getD_set_thr _ _ _ _ (lt_of_some ht), if_pos rfl, getD_of_some ht]
        have e := L_set h hlen hk hk b
        rw [if_pos rfl] at e
        unfold L at e
        simp only [jcost, e]
        have h0 := hgb.1
        unfold L at hb
        omega
  | _ => exact hT.elim

/-! ### Initialisation -/

def icost : Thr → Nat
  | .initSet _ _ => 1
  | .initChk _ _ => 2
  | _ => 0

def isum (thr : List Thr) : Nat := sumN thr.length (fun k => icost (thr.getD k .fin))

theorem isum_lt {thr : List Thr} {k : Nat} {t t' : Thr}
    (h : thr[k]? = some t) (hc : icost t' < icost t) : isum (thr.set k t') < isum thr := by
  have hk := lt_of_some h
  unfold isum
  rw [List.length_set]
  refine sumN_lt (k := k) ?_ (by omega) ?_
  · intro j _
    rw [getD_set_thr _ _ _ _ hk]
    split
    · next he => subst he; rw [getD_of_some h]; omega
    · exact Nat.le_refl _
  · rw [getD_set_thr _ _ _ _ hk, if_pos rfl, getD_of_some h]; exact hc

theorem init_step (h : S.Ok) {F : List Int} {m : Nat} {s : State} (hI : S.InitInv F m s) {j : Nat}
    {t : Thr} (ht : s.thr[j]? = some t) (hf : t.finished = false) :
    wp (exec S.e t s.lab s.change) (fun r =>
      S.InitInv F m { s with lab := r.2.1, change := r.2.2, thr := s.thr.set j r.1 } ∧
      isum (s.thr.set j r.1) < isum s.thr) := by
  have hj : j < S.N - m := by rw [← hI.tlen]; exact lt_of_some ht
  have hk : m + j < S.N := by omega
  have hT := hI.thr j t ht
  have hlen := hI.len
  cases t with
  | fin => simp [Thr.finished] at hf
  | initSet u i =>
    obtain ⟨rfl, rfl⟩ := hT
    simp only [exec]
    rw [wr_eq (by rw [hlen]; exact nd_lt h hk)]
    simp only [ok_bind, wp_ok]
    refine ⟨{ phase := hI.phase, len := by rw [List.length_set]; exact hlen, mle := hI.mle,
              old := ?_, frame := frame_set hk hI.frame,
              tlen := by rw [List.length_set]; exact hI.tlen, thr := ?_ },
            isum_lt ht (by simp [icost])⟩
    · intro k hk'
      obtain ⟨h1, h2⟩ := hI.old k hk'
      have hkN : k < S.N := by have := hI.mle; omega
      have e : S.L (s.lab.set (S.nd (m + j)) ((m + j : Nat) : Int)) k = S.L s.lab k := by
        rw [L_set h hlen hk hkN, if_neg (by omega)]
      have := h1.1
      have := h1.2.1
      rw [e]
      refine ⟨h1, ?_⟩
      rw [L_set h hlen hk (h1.toNat_lt hkN), if_neg (by omega)]
      exact h2
    · intro i x hx
      rcases get_set hx with ⟨rfl, rfl⟩ | ⟨hne, hx⟩
      · simp only [ThrInit]
        rw [L_set h hlen hk hk, if_pos rfl]
      · have hi : i < S.N - m := by rw [← hI.tlen]; exact lt_of_some hx
        have hx' := hI.thr i x hx
        cases x with
        | fin =>
          simp only [ThrInit] at hx' ⊢
          rw [L_set h hlen hk (by omega), if_neg (by omega)]; exact hx'
        | initSet u i => exact hx'
        | initChk u i' =>
          simp only [ThrInit] at hx' ⊢
          rw [L_set h hlen hk (by omega), if_neg (by omega)]; exact hx'
        | _ => exact hx'.elim
  | initChk u i =>
    obtain ⟨rfl, rfl, hm1⟩ := hT
    simp only [exec, rd_lab h hlen hk, ok_bind, hm1, if_true, wp_ok]
    refine ⟨{ hI with tlen := by rw [List.length_set]; exact hI.tlen, thr := ?_ },
      isum_lt ht (by simp [icost])⟩
    intro i x hx
    rcases get_set hx with ⟨rfl, rfl⟩ | ⟨hne, hx⟩
    · exact ⟨rfl, rfl⟩
    · exact hI.thr i x hx
  | _ => exact hT.elim

end Setup
end Verif.CC
