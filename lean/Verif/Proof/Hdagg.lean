import Verif.Proof.SchedLoop

/-! # `HDAGG` as a whole -/

namespace Verif.Hdagg
open Res CC Csc LevelSet

variable {K : Type} [AddCommGroup K] [LinearOrder K] [IsOrderedAddMonoid K]

/-- `hdagg` after a successful level-set computation. -/
theorem hdagg_rest {t : Bool} {D S : Nat → Nat → Prop} {g : Csc} (hwf : g.WF) {L : Nat} {ptr set ntl : List Nat}
    (hO : LevelOk g L ptr set ntl) {rdiv : K → Nat → K} (hr : RDivOk rdiv) {a : Args K}
    (hn : a.n = g.n) (hp : a.p = g.p) (hi : a.ix = g.i) (hcl : a.nodeCost.length = g.n)
    (hpos : ∀ v, v < g.n → 0 < a.nodeCost.getD v 0) (hcores : 1 ≤ a.cores)
    (hsub : ∀ u v, D u v → g.Dep u v)
    (hlow : a.binPack = true → a.postOrder = false → ∀ u v, D u v → S u v → u < v)
    (hpost : a.postOrder = true → g.DiagFirst ∧ g.OneDiag) (accept : Nat → Nat → Bool)
    {cc cc' : Orac} (hT : t = true → CCTotal false g L ptr set ntl a.nodeCost cc)
    (hT' : t = true → SCTotal g L ptr set ntl cc') :
    wpm t (do
      let w ← windows false ⟨a.n, a.p, a.ix, a.nodeCost, a.cores, rdiv, ptr, set, ntl, L⟩ accept cc
      let s ← computeSchedule false ⟨a.cores, a.n, a.p, a.ix, ptr, set, ntl, a.binPack,
        a.postOrder⟩ w.wm w.chunks cc'
      ok (w.wm, s)) (fun r => WmOk L r.1 ∧ r.2.levels = r.1.length - 1 ∧
        r.2.Valid g.n (fun u v => D u v ∧ S u v) ∧ r.2.Together D) := by
  simp only [wpm_bind]
  refine wpm_mono (windows_spec hwf hO (d := ⟨a.n, a.p, a.ix, a.nodeCost, a.cores, rdiv, ptr, set,
    ntl, L⟩) ⟨hn, hp, hi, rfl, rfl, rfl, rfl, hcl, hpos, hcores, hr⟩ false accept hT) ?_
  rintro w ⟨hI, hl⟩
  have hw : WmOk L w.wm := ⟨hI.wpos, hI.w0, hI.wlast.trans hl, hI.strict⟩
  refine wpm_mono (computeSchedule_spec hwf hO ⟨hn, hp, hi, rfl, rfl, rfl⟩ hsub hlow hpost hT' hw ?_ ?_) ?_
  · intro _
    have h1 := hI.idx_le (w.wm.length - 1) (by have := hI.wpos; omega)
    have h2 := hI.wlast
    have h3 := hI.lvl
    have h4 := hI.chlen
    omega
  · intro _ k hk
    exact hI.chunk k hk
  · rintro s ⟨h1, h2⟩
    exact ⟨hw, h1, h2⟩

end Verif.Hdagg
