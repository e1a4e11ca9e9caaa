import Verif.Proof.P2PPlan

/-! Point-to-point solvers: the whole parallel region. -/

namespace Verif.P2P
open Res Exec Relation

variable {V : Type} {A : Arith V} {m : Mat V}
variable {S : TaskGraph} {T N : Nat} {dep : Nat → Nat → Prop} {rowsOf : Nat → List Nat}

theorem threadCodes_eq {f : Nat → Res (List (PIns V))} {c : Nat → List (PIns V)} (tids : List Nat)
    (h : ∀ t ∈ tids, f t = ok (c t)) : threadCodes f tids = ok (tids.map c) := by
  unfold threadCodes
  rw [forEach_push (fun t => [c t]) tids [] (by
    intro a ha acc
    rw [h a ha]; rfl)]
  simp [List.map_eq_flatMap]

theorem region_spec (hR : RowsOk m) (h : S.Ok T N dep) (hN : NodesOk m.n N m.RowDep dep rowsOf)
    {body : Nat → Res (List (Instr V))}
    (hbody : ∀ c, c < N → ∃ v, S.perm[c]? = some v ∧ body c = ok (code hR (rowsOf v)))
    {b xs : List V} (hb : b.length = m.n) (hS : m.Solution A b xs) {flags : List Nat}
    (hf : S.ntasks ≤ flags.length) :
    (∀ sch₀ sch, region A S body T (List.range T) sch₀ sch flags b = ok xs ∨
      region A S body T (List.range T) sch₀ sch flags b = nofuel) ∧
    ∀ sch₀ sch, ∃ e₀ e, region A S body T (List.range T) (sch₀ ++ e₀) (sch ++ e) flags b = ok xs := by
  have hG := planOf_good (S := S) (T := T) h hN
  obtain ⟨P, hPdef⟩ : ∃ P, P = planOf S T rowsOf := ⟨_, rfl⟩
  have hcodes : threadCodes (threadCode S body) (List.range T) =
      ok ((List.range T).map fun t => (P.atoms t).flatMap (ins hR)) := by
    refine threadCodes_eq _ fun t ht => ?_
    rw [hPdef]
    exact threadCode_eq h hR (fun t ht i hi => hG.mem_row_lt ht hi) hbody (List.mem_range.1 ht)
  rw [← hPdef] at hG
  have hPT : P.T = T := by rw [hPdef]; rfl
  have hPn : P.ntasks = S.ntasks := by rw [hPdef]; rfl
  obtain ⟨cl, hcl⟩ : ∃ cl : List (Mach.Thr Nat Unit), cl = ((List.range T).map (clearList S.ntasks T)).map
    (fun c => ⟨c, ()⟩) := ⟨_, rfl⟩
  have hclb : ∀ fl : List Nat, S.ntasks ≤ fl.length → ∀ th ∈ cl, ∀ k ∈ th.code, k < fl.length := by
    intro fl hfl th hth k hk
    rw [hcl, List.map_map] at hth
    obtain ⟨t, _, rfl⟩ := List.mem_map.1 hth
    have := clearList_lt hk
    omega
  have hcov : ∀ k, k < S.ntasks → ∃ th ∈ cl, k ∈ th.code := by
    intro k hk
    have hT : 0 < T := by
      rcases Nat.eq_zero_or_pos T with h0 | h0
      · have h1 := h.thr.first
        have h2 := h.thr.last
        rw [h0, h1] at h2
        have := Option.some.inj h2
        omega
      · exact h0
    obtain ⟨t, ht, hm⟩ := mem_clearList hk hT
    exact ⟨⟨clearList S.ntasks T t, ()⟩, by
      rw [hcl, List.map_map]
      exact List.mem_map.2 ⟨t, List.mem_range.2 ht, rfl⟩, hm⟩
  -- the start of the second phase
  have hinit : ∀ fl : List Nat, S.ntasks ≤ fl.length → (∀ k, k < S.ntasks → fl.getD k 0 = 0) →
      Inv A hR P b xs (fun _ => []) (((List.range T).map fun t => (P.atoms t).flatMap (ins hR)).map
        fun c => ⟨c, none, none⟩) ⟨fl, b⟩ := by
    intro fl hfl h0
    refine ⟨⟨fun t _ => List.nil_prefix, fun t _ p hp => absurd hp (by simp)⟩, by simp [hPT], hb,
      by rw [hPn]; exact hfl, ?_, ?_, ?_⟩
    · intro a ha
      rw [hPn] at ha
      refine ⟨fun hc => absurd (h0 a ha) hc, ?_⟩
      rintro ⟨_, _, hc⟩
      simp at hc
    · rintro i ⟨_, _, hc⟩
      simp at hc
    · intro t ht
      rw [hPT] at ht
      exact ⟨⟨(P.atoms t).flatMap (ins hR), none, none⟩, P.atoms t, by simp [ht], rfl,
        .inl ⟨rfl, fun _ _ => rfl⟩⟩
  have hclear : ∀ sch₀, (∃ fl, Mach.parFor clearStep () ((List.range T).map (clearList S.ntasks T)) sch₀
      flags = ok fl ∧ S.ntasks ≤ fl.length ∧ (∀ k, k < S.ntasks → fl.getD k 0 = 0)) ∨
      Mach.parFor clearStep () ((List.range T).map (clearList S.ntasks T)) sch₀ flags = nofuel := by
    intro sch₀
    obtain ⟨ths', flags', g1, g2, g3, g4⟩ := clear_run sch₀ cl flags (hclb flags hf)
    unfold Mach.parFor
    rw [← hcl, g1, ok_bind]
    dsimp only
    by_cases hall : (ths'.all fun th => th.code.isEmpty) = true
    · left
      refine ⟨flags', by rw [if_pos hall], by omega, ?_⟩
      intro k hk
      rcases g4 k (.inr (hcov k hk)) with h0 | ⟨th, hth, hk'⟩
      · exact h0
      · have := List.all_eq_true.1 hall th hth
        rw [List.isEmpty_iff] at this
        rw [this] at hk'
        simp at hk'
    · right
      rw [if_neg hall]
  have hrun : ∀ sch₀ sch fl, Mach.parFor clearStep () ((List.range T).map (clearList S.ntasks T)) sch₀
      flags = ok fl → region A S body T (List.range T) sch₀ sch flags b = (do
        let r ← runSched A sch (((List.range T).map fun t => (P.atoms t).flatMap (ins hR)).map
          fun c => ⟨c, none, none⟩) ⟨fl, b⟩
        if r.1.all (fun th => th.code.isEmpty) then ok r.2.x else nofuel) := by
    intro sch₀ sch fl hfl
    unfold region
    rw [clearCodes_eq, ok_bind, hfl, ok_bind, hcodes, ok_bind]
  have hphase : ∀ fl sch, S.ntasks ≤ fl.length → (∀ k, k < S.ntasks → fl.getD k 0 = 0) →
      ((do
        let r ← runSched A sch (((List.range T).map fun t => (P.atoms t).flatMap (ins hR)).map
          fun c => ⟨c, none, none⟩) ⟨fl, b⟩
        if r.1.all (fun th => th.code.isEmpty) then ok r.2.x else nofuel) : Res (List V)) = ok xs ∨
      ((do
        let r ← runSched A sch (((List.range T).map fun t => (P.atoms t).flatMap (ins hR)).map
          fun c => ⟨c, none, none⟩) ⟨fl, b⟩
        if r.1.all (fun th => th.code.isEmpty) then ok r.2.x else nofuel) : Res (List V)) = nofuel := by
    intro fl sch hfl h0
    obtain ⟨ths', s', done', k1, k2⟩ := runSched_inv hG hb hS sch _ _ _ (hinit fl hfl h0)
    rw [k1, ok_bind]
    dsimp only
    by_cases hall : (ths'.all fun th => th.code.isEmpty) = true
    · rw [if_pos hall]
      exact .inl (by rw [k2.final hG hS hall])
    · rw [if_neg hall]
      exact .inr rfl
  constructor
  · intro sch₀ sch
    rcases hclear sch₀ with ⟨fl, h1, h2, h3⟩ | hn
    · rw [hrun sch₀ sch fl h1]; exact hphase fl sch h2 h3
    · right
      unfold region
      rw [clearCodes_eq, ok_bind, hn]; rfl
  · intro sch₀ sch
    obtain ⟨ths1, fl1, g1, g2, g3, _⟩ := clear_run sch₀ cl flags (hclb flags hf)
    obtain ⟨e₀, ths2, fl2, k1, k2⟩ := clear_complete _ ths1 fl1 g3 rfl
    have hfl : Mach.parFor clearStep () ((List.range T).map (clearList S.ntasks T)) (sch₀ ++ e₀)
        flags = ok fl2 := by
      unfold Mach.parFor
      rw [← hcl, clear_append, g1, ok_bind, k1, ok_bind, if_pos k2]
    rcases hclear (sch₀ ++ e₀) with ⟨fl, h1, h2, h3⟩ | hn
    · obtain ⟨ths', s', done', q1, q2⟩ := runSched_inv hG hb hS sch _ _ _ (hinit fl h2 h3)
      obtain ⟨e, ths'', s'', q3, q4⟩ := q2.complete hG hb hS _ rfl
      refine ⟨e₀, e, ?_⟩
      rw [hrun (sch₀ ++ e₀) (sch ++ e) fl h1]
      rcases hphase fl (sch ++ e) h2 h3 with hx | hx
      · exact hx
      · exfalso
        rw [runSched_append, q1, ok_bind, q3, ok_bind, if_pos q4] at hx
        cases hx
    · rw [hfl] at hn
      cases hn

end Verif.P2P
