import Verif.Proof.Ic0Order
import Verif.Proof.ExecGroup
import Verif.Proof.Dense

/-! # The parallel incomplete Cholesky kernels -/

namespace Verif.Ic0
open Res Exec

variable {V : Type} {a : Mat V}

/-- The location accessed by an instruction. -/
def Ins.addr : Ins → Nat
  | .ld1 a => a
  | .ld2 a => a
  | .root a => a
  | .div a => a
  | .atom a => a

/-- The instruction is an atomic update. -/
def Ins.atomic : Ins → Bool
  | .atom _ => true
  | _ => false

/-- Effect on the registers and the accessed location. -/
def eff (A : IcArith V) : Ins → Option V × Option V → V → Option ((Option V × Option V) × V)
  | .ld1 _, r, v => some ((some v, r.2), v)
  | .ld2 _, r, v => some ((r.1, some v), v)
  | .root _, (some x, some y), _ => some ((some x, some y), A.dv y (A.root x))
  | .div _, (some x, some y), _ => some ((some x, some y), A.dv x y)
  | .atom _, (some x, some y), v => some ((some x, some y), A.upd v x y)
  | _, _, _ => none

/-- Perform the effect. -/
def app (A : IcArith V) (i : Ins) (r : Option V × Option V) (m : List V) : Option ((Option V × Option V) × List V) :=
  (m[i.addr]?).bind fun v => (eff A i r v).map fun t => (t.1, m.set i.addr t.2)

/-- An absent result is undefined behaviour. -/
def orUb {α : Type} : Option α → Res α
  | some x => ok x
  | none => ub

theorem set_same {m : List V} {k : Nat} {v : V} (h : m[k]? = some v) : m.set k v = m := by
  obtain ⟨h1, h2⟩ := List.getElem?_eq_some_iff.1 h
  rw [← h2]
  exact List.set_getElem_self h1

theorem step_eq (A : IcArith V) (i : Ins) (r : Option V × Option V) (m : List V) :
    step A i r m = orUb (app A i r m) := by
  have hrd : ∀ k, (∃ v, m[k]? = some v ∧ rd m k = ok v ∧ ∀ w, wr m k w = ok (m.set k w)) ∨
      (m[k]? = none ∧ rd m k = ub ∧ ∀ w, wr m k w = ub) := by
    intro k
    by_cases hk : k < m.length
    · exact .inl ⟨m[k], List.getElem?_eq_getElem hk, rd_eq hk, fun w => wr_eq hk⟩
    · refine .inr ⟨List.getElem?_eq_none (by omega), ?_, ?_⟩
      · unfold rd
        rw [List.getElem?_eq_none (by omega)]
      · intro w
        unfold wr
        rw [if_neg hk]
  obtain ⟨r1, r2⟩ := r
  cases i with
  | ld1 k =>
    rcases hrd k with ⟨v, h1, h2, h3⟩ | ⟨h1, h2, h3⟩
    · simp [step, app, eff, orUb, Ins.addr, h1, h2, set_same h1]
    · simp [step, app, orUb, Ins.addr, h1, h2, ub_bind]
  | ld2 k =>
    rcases hrd k with ⟨v, h1, h2, h3⟩ | ⟨h1, h2, h3⟩
    · simp [step, app, eff, orUb, Ins.addr, h1, h2, set_same h1]
    · simp [step, app, orUb, Ins.addr, h1, h2, ub_bind]
  | root k =>
    rcases hrd k with ⟨v, h1, h2, h3⟩ | ⟨h1, h2, h3⟩ <;> cases r1 <;> cases r2 <;>
      simp [step, app, eff, orUb, Ins.addr, h1, h3, ub_bind]
  | div k =>
    rcases hrd k with ⟨v, h1, h2, h3⟩ | ⟨h1, h2, h3⟩ <;> cases r1 <;> cases r2 <;>
      simp [step, app, eff, orUb, Ins.addr, h1, h3, ub_bind]
  | atom k =>
    rcases hrd k with ⟨v, h1, h2, h3⟩ | ⟨h1, h2, h3⟩ <;> cases r1 <;> cases r2 <;>
      simp [step, app, eff, orUb, Ins.addr, h1, h2, h3, ub_bind]

/-- Instructions that access different locations, or are both atomic updates. -/
def Free (i j : Ins) : Prop := i.addr ≠ j.addr ∨ (i.atomic = true ∧ j.atomic = true)

theorem indep_of_free {A : IcArith V} (hA : A.Comm) {i j : Ins} (h : Free i j) : Mach.Indep (step A) i j := by
  intro r s m
  simp only [step_eq]
  rcases h with h | ⟨h1, h2⟩
  · unfold app
    cases h1 : m[i.addr]? with
    | none =>
      cases h2 : m[j.addr]? with
      | none => rfl
      | some w =>
        cases h3 : eff A j s w with
        | none => simp [orUb, h3, ub_bind]
        | some t => simp [orUb, h3, ub_bind, List.getElem?_set_ne (Ne.symm h), h1]
    | some v =>
      cases h2 : m[j.addr]? with
      | none =>
        cases h3 : eff A i r v with
        | none => simp [orUb, h3, ub_bind]
        | some t => simp [orUb, h3, ub_bind, List.getElem?_set_ne h, h2]
      | some w =>
        cases h3 : eff A i r v with
        | none =>
          cases h4 : eff A j s w with
          | none => simp [orUb, h3, h4, ub_bind]
          | some t => simp [orUb, h3, h4, ub_bind, List.getElem?_set_ne (Ne.symm h), h1]
        | some t =>
          cases h4 : eff A j s w with
          | none => simp [orUb, h3, h4, ub_bind, List.getElem?_set_ne h, h2]
          | some t' =>
            simp [orUb, h3, h4, List.getElem?_set_ne h, List.getElem?_set_ne (Ne.symm h), h1, h2,
              List.set_comm _ _ h]
  · cases i <;> simp [Ins.atomic] at h1
    cases j <;> simp [Ins.atomic] at h2
    rename_i k k'
    by_cases hk : k = k'
    · subst hk
      unfold app
      obtain ⟨r1, r2⟩ := r
      obtain ⟨s1, s2⟩ := s
      cases h1 : m[k]? with
      | none => simp [Ins.addr, h1, orUb, ub_bind]
      | some v =>
        have hkl : k < m.length := (List.getElem?_eq_some_iff.1 h1).1
        cases r1 <;> cases r2 <;> cases s1 <;> cases s2 <;>
          simp [Ins.addr, h1, orUb, eff, ub_bind, List.getElem?_set_self hkl, hA _ _ _ _ _]
    · unfold app
      have hk' : k' ≠ k := Ne.symm hk
      obtain ⟨r1, r2⟩ := r
      obtain ⟨s1, s2⟩ := s
      cases h1 : m[k]? <;> cases h2 : m[k']? <;> cases r1 <;> cases r2 <;> cases s1 <;> cases s2 <;>
        simp [Ins.addr, h1, h2, orUb, eff, ub_bind, List.getElem?_set_ne hk, List.getElem?_set_ne hk',
          List.set_comm _ _ hk]

/-- What the instructions of a column access: its own positions without `atomic`, the positions of
the columns that depend on it only with atomic updates. -/
theorem mem_colI {g : Csc} (hT : Tri g) {c : Nat} (hc : c < g.n) {i : Ins} (h : i ∈ colI g c) :
    (i.atomic = false ∧ g.ptr c ≤ i.addr ∧ i.addr < g.ptr (c + 1)) ∨
    (i.atomic = true ∧ ∃ j, g.Dep c j ∧ g.ptr j ≤ i.addr ∧ i.addr < g.ptr (j + 1)) := by
  have hlt := hT.lt_next hc
  unfold colI at h
  rw [List.mem_append, List.mem_append] at h
  rcases h with (h | h) | h
  · left
    simp only [List.mem_cons, List.not_mem_nil, or_false] at h
    rcases h with rfl | rfl | rfl <;> exact ⟨rfl, Nat.le_refl _, hlt⟩
  · left
    rw [List.mem_flatMap] at h
    obtain ⟨m, hm, h⟩ := h
    rw [List.mem_range'_1] at hm
    simp only [List.mem_cons, List.not_mem_nil, or_false] at h
    rcases h with rfl | rfl | rfl
    · exact ⟨rfl, by simp only [Ins.addr]; omega, by simp only [Ins.addr]; omega⟩
    · exact ⟨rfl, Nat.le_refl _, hlt⟩
    · exact ⟨rfl, by simp only [Ins.addr]; omega, by simp only [Ins.addr]; omega⟩
  · rw [List.mem_flatMap] at h
    obtain ⟨m, hm, h⟩ := h
    rw [List.mem_range'_1] at hm
    rw [List.mem_flatMap] at h
    obtain ⟨k, hk, h⟩ := h
    rw [List.mem_range'_1] at hk
    unfold hitCode at h
    cases hf : found g m (g.ptr (c + 1)) k with
    | none => rw [hf] at h; simp at h
    | some l =>
      rw [hf] at h
      obtain ⟨b1, b2, b3⟩ := found_some hf
      simp only [List.mem_cons, List.not_mem_nil, or_false] at h
      rcases h with rfl | rfl | rfl
      · left
        exact ⟨rfl, by simp only [Ins.addr]; omega, by simp only [Ins.addr]; omega⟩
      · left
        exact ⟨rfl, by simp only [Ins.addr]; omega, by simp only [Ins.addr]; omega⟩
      · right
        refine ⟨rfl, g.idx m, hT.dep_idx hc (by omega) (by omega), ?_, ?_⟩
        · simp only [Ins.addr]; omega
        · simp only [Ins.addr]; omega

/-- Columns without a dependence between them have free instructions. -/
theorem free_cols {g : Csc} (hT : Tri g) {c c' : Nat} (hc : c < g.n) (hc' : c' < g.n) (hne : c ≠ c')
    (h1 : ¬ g.Dep c c') (h2 : ¬ g.Dep c' c) {i j : Ins} (hi : i ∈ colI g c) (hj : j ∈ colI g c') : Free i j := by
  rcases mem_colI hT hc hi with ⟨_, b1, b2⟩ | ⟨a1, d, b1, b2, b3⟩
  · rcases mem_colI hT hc' hj with ⟨_, c1, c2⟩ | ⟨a1', d', c1, c2, c3⟩
    · left
      intro he
      rw [he] at b1 b2
      exact hne (hT.col_unique hc hc' b1 b2 c1 c2)
    · left
      intro he
      rw [he] at b1 b2
      have := hT.col_unique hc (hT.wf.dep_lt c1).2 b1 b2 c2 c3
      exact h2 (this ▸ c1)
  · rcases mem_colI hT hc' hj with ⟨_, c1, c2⟩ | ⟨a1', d', c1, c2, c3⟩
    · left
      intro he
      rw [he] at b2 b3
      have := hT.col_unique hc' (hT.wf.dep_lt b1).2 c1 c2 b2 b3
      exact h1 (this ▸ b1)
    · right
      exact ⟨a1, a1'⟩

/-- The code of a list of columns. -/
def codeI (g : Csc) (P : List Nat) : List Ins := P.flatMap (colI g)

theorem seqAll_eq {A : IcArith V} {g : Csc} (hT : Tri g) (parts : List (List Nat)) (h : ∀ P ∈ parts, ∀ c ∈ P, c < g.n) :
    ∀ x : List V, Mach.seqAll (step A) (none, none) (parts.map (codeI g)) x =
      forEach parts.flatten (column A g.p g.i) x := by
  induction parts with
  | nil => intro x; rfl
  | cons P parts ih =>
    intro x
    rw [List.map_cons, Mach.seqAll, List.flatten_cons, forEach_append]
    have h1 : Runs A (codeI g P) (forEach P (column A g.p g.i)) :=
      Runs.each (fun c hc => runs_column hT A (h P (by simp) c hc))
    rw [← h1 (none, none) x, Mach.bind_assoc']
    congr 1
    funext t
    exact ih (fun Q hQ => h Q (by simp [hQ])) t.2

/-- Some scheduler lets every thread finish. -/
theorem parFor_exists {I R M : Type} (st : I → R → M → Res (R × M)) (r0 : R) (codes : List (List I)) (m m' : M)
    (hind : ∀ (s t : Nat), s ≠ t → ∀ (c c' : List I), codes[s]? = some c → codes[t]? = some c' →
      ∀ a ∈ c, ∀ b ∈ c', Mach.Indep st a b)
    (hseq : Mach.seqAll st r0 codes m = ok m') : ∃ sch, Mach.parFor st r0 codes sch m = ok m' := by
  obtain ⟨ths, hths⟩ : ∃ ths : List (Mach.Thr I R), ths = codes.map fun c => ⟨c, r0⟩ := ⟨_, rfl⟩
  have hI : Mach.AllIndep st ths := by
    intro s t hst th th' hs ht a ha b hb
    rw [hths, List.getElem?_map] at hs ht
    obtain ⟨c, hc, rfl⟩ := Option.map_eq_some_iff.mp hs
    obtain ⟨c', hc', rfl⟩ := Option.map_eq_some_iff.mp ht
    exact hind s t hst c c' hc hc' a ha b hb
  obtain ⟨sch, hcount⟩ := Mach.exists_complete ths
  have h := Mach.runSched_seq st _ sch rfl ths m hI hcount
  rw [hths, Mach.seqThr_map, hseq, ← hths] at h
  refine ⟨sch, ?_⟩
  unfold Mach.parFor
  rw [← hths]
  cases hq : Mach.runSched st sch ths m with
  | ok x =>
    rw [hq] at h
    have h2 := h.2 x rfl
    rw [ok_bind, if_pos]
    · exact h.1
    · rw [List.all_eq_true]
      intro th hth
      rw [h2 th hth]
      rfl
  | ub => rw [hq] at h; cases h.1
  | exn => rw [hq] at h; cases h.1
  | nofuel => rw [hq] at h; cases h.1

/-- A nested schedule is an order that respects the dependences. -/
theorem topo_nested {g : Csc} {levels : Nat} {parts : Nat → List (List Nat)} (hN : NestedOk g.n g.Dep levels parts) :
    ∀ k, k ≤ levels → Topo g (nestedRows parts k) := by
  have inner : ∀ (base : List Nat) (L : List (List Nat)),
      (∀ P ∈ L, ∀ pre v post, P = pre ++ v :: post → ∀ u, g.Dep u v → u ∈ base ∨ u ∈ pre) →
      ∀ pre v post, L.flatten = pre ++ v :: post → ∀ u, g.Dep u v → u ∈ base ∨ u ∈ pre := by
    intro base L
    induction L with
    | nil => intro _ pre v post h; simp at h
    | cons P L ih =>
      intro h pre v post hf u hd
      rw [List.flatten_cons, List.append_eq_append_iff] at hf
      rcases hf with ⟨c, h1, h2⟩ | ⟨c, h1, h2⟩
      · rcases ih (fun Q hQ => h Q (by simp [hQ])) c v post h2 u hd with h3 | h3
        · exact .inl h3
        · right
          rw [h1]
          simp [h3]
      · cases c with
        | nil =>
          simp at h1 h2
          rcases ih (fun Q hQ => h Q (by simp [hQ])) [] v post h2.symm u hd with h3 | h3
          · exact .inl h3
          · simp at h3
        | cons w c =>
          simp only [List.cons_append, List.cons.injEq] at h2
          obtain ⟨rfl, h2⟩ := h2
          exact h P (by simp) pre v c h1 u hd
  intro k
  induction k with
  | zero =>
    intro _ pre v post h
    simp [nestedRows] at h
  | succ k ih =>
    intro hk pre v post h u hd
    rw [nestedRows_succ, List.append_eq_append_iff] at h
    rcases h with ⟨c, h1, h2⟩ | ⟨c, h1, h2⟩
    · rcases inner (nestedRows parts k) (parts k) (hN.dep k (by omega)) c v post h2 u hd with h3 | h3
      · rw [h1]; simp [h3]
      · rw [h1]; simp [h3]
    · cases c with
      | nil =>
        simp at h1 h2
        rcases inner (nestedRows parts k) (parts k) (hN.dep k (by omega)) [] v post h2.symm u hd with h3 | h3
        · rw [← h1]; exact h3
        · simp at h3
      | cons w c =>
        simp only [List.cons_append, List.cons.injEq] at h2
        obtain ⟨rfl, h2⟩ := h2
        exact ih (by omega) pre v c h1 u hd

/-- The threads of a level have free instructions. -/
theorem level_free {g : Csc} (hT : Tri g) {levels : Nat} {parts : Nat → List (List Nat)}
    (hN : NestedOk g.n g.Dep levels parts) {l : Nat} (hl : l < levels) {s t : Nat} (hst : s ≠ t) {P Q : List Nat}
    (hP : (parts l)[s]? = some P) (hQ : (parts l)[t]? = some Q) {i j : Ins} (hi : i ∈ codeI g P) (hj : j ∈ codeI g Q) :
    Free i j := by
  have hnd : (nestedRows parts levels).Nodup := hN.perm.nodup_iff.2 List.nodup_range
  have hpre := nestedRows_mono (parts := parts) (a := l + 1) (b := levels) hl
  rw [nestedRows_succ] at hpre
  have hnd' := hnd.sublist hpre.sublist
  have hlt : ∀ P ∈ parts l, ∀ c ∈ P, c < g.n := by
    intro P hP c hc
    have : c ∈ nestedRows parts levels :=
      hpre.subset (List.mem_append_right _ (List.mem_flatten.2 ⟨P, hP, hc⟩))
    exact List.mem_range.1 (hN.perm.mem_iff.1 this)
  have hPm := List.mem_of_getElem? hP
  have hQm := List.mem_of_getElem? hQ
  -- members of different parts differ, and are not in earlier levels
  have hdis : ∀ (s t : Nat) (P Q : List Nat), s ≠ t → (parts l)[s]? = some P → (parts l)[t]? = some Q → ∀ c ∈ P, c ∉ Q := by
    have hfl := (List.nodup_append.1 hnd').2.1
    have hpw : ∀ (s t : Nat) (P Q : List Nat), s < t → (parts l)[s]? = some P → (parts l)[t]? = some Q → ∀ c ∈ P, c ∉ Q := by
      intro s t P Q hst h1 h2 c hc hcq
      have := (List.nodup_flatten.1 hfl).2
      rw [List.pairwise_iff_getElem] at this
      obtain ⟨e1, e2⟩ := List.getElem?_eq_some_iff.1 h1
      obtain ⟨e3, e4⟩ := List.getElem?_eq_some_iff.1 h2
      have hd := this s t e1 e3 hst
      rw [e2, e4] at hd
      exact hd hc hcq
    intro s t P Q hst h1 h2 c hc hcq
    rcases Nat.lt_or_gt_of_ne hst with h | h
    · exact hpw s t P Q h h1 h2 c hc hcq
    · exact hpw t s Q P h h2 h1 c hcq hc
  have hnodep : ∀ (s t : Nat) (P Q : List Nat), s ≠ t → (parts l)[s]? = some P → (parts l)[t]? = some Q →
      ∀ c ∈ P, ∀ d ∈ Q, ¬ g.Dep c d := by
    intro s t P Q hst h1 h2 c hc d hd hdep
    obtain ⟨p1, p2, hp⟩ := List.append_of_mem hd
    rcases hN.dep l hl Q (List.mem_of_getElem? h2) p1 d p2 hp c hdep with h | h
    · exact (List.nodup_append.1 hnd').2.2 c h c (List.mem_flatten.2 ⟨P, List.mem_of_getElem? h1, hc⟩) rfl
    · exact hdis s t P Q hst h1 h2 c hc (by rw [hp]; simp [h])
  unfold codeI at hi hj
  rw [List.mem_flatMap] at hi hj
  obtain ⟨c, hc, hi⟩ := hi
  obtain ⟨d, hd, hj⟩ := hj
  refine free_cols hT (hlt P hPm c hc) (hlt Q hQm d hd) ?_ ?_ ?_ hi hj
  · rintro rfl
    exact hdis s t P Q hst hP hQ c hc hd
  · exact hnodep s t P Q hst hP hQ c hc d hd
  · exact hnodep t s Q P (Ne.symm hst) hQ hP d hd c hc

/-- Level loops. -/
theorem levelLoop_spec {A : IcArith V} (hA : A.Comm) (hT : Tri a.pat) (hx : a.pat.ptr a.n ≤ a.x.length)
    {levels : Nat} {ptr : List Nat} {thread : Nat → Res (List Ins)} {parts : Nat → List (List Nat)}
    (hN : NestedOk a.n a.pat.Dep levels parts)
    (hthr : ∀ l, l < levels → ∃ lo hi, rd ptr l = ok lo ∧ rd ptr (l + 1) = ok hi ∧
      Mach.parCodes lo hi thread = ok ((parts l).map (codeI a.pat))) :
    ∃ xs, ic0Csc A a.n a.p a.i a.x = ok xs ∧ a.IsIC0 A xs ∧
      (∀ sch, Mach.levelLoop (step A) (none, none) levels ptr thread sch a.x = ok xs ∨
        Mach.levelLoop (step A) (none, none) levels ptr thread sch a.x = nofuel) ∧
      ∃ sch, Mach.levelLoop (step A) (none, none) levels ptr thread sch a.x = ok xs := by
  -- serial
  obtain ⟨xs, hs1, hs2⟩ := wp_iff.1 (order_wp A hT hx (ord := List.range a.n) List.nodup_range
    (fun c hc => List.mem_range.1 hc) (topo_range hT))
  have hser : ic0Csc A a.n a.p a.i a.x = ok xs := by
    unfold ic0Csc
    rw [Util.forRange_eq_forEach, ← hs1]
  have hnest : ∀ k, k ≤ levels → wp (forEach (nestedRows parts k) (column A a.p a.i) a.x)
      (Inv A a a.x (nestedRows parts k)) := by
    intro k hk
    have hpre := nestedRows_mono (parts := parts) (a := k) (b := levels) hk
    refine order_wp A hT hx ((hN.perm.nodup_iff.2 List.nodup_range).sublist hpre.sublist) ?_ (topo_nested hN k hk)
    intro c hc
    exact List.mem_range.1 (hN.perm.mem_iff.1 (hpre.subset hc))
  have hlast : forEach (nestedRows parts levels) (column A a.p a.i) a.x = ok xs := by
    obtain ⟨ys, h1, h2⟩ := wp_iff.1 (hnest levels (Nat.le_refl _))
    rw [h1]
    congr 1
    exact order_eq hA hT hx hN.perm (topo_nested hN levels (Nat.le_refl _)) (List.Perm.refl _) (topo_range hT) h2 hs2
  have hlt : ∀ l, l < levels → ∀ P ∈ parts l, ∀ c ∈ P, c < a.n := by
    intro l hl P hP c hc
    have hpre := nestedRows_mono (parts := parts) (a := l + 1) (b := levels) hl
    rw [nestedRows_succ] at hpre
    have : c ∈ nestedRows parts levels :=
      hpre.subset (List.mem_append_right _ (List.mem_flatten.2 ⟨P, hP, hc⟩))
    exact List.mem_range.1 (hN.perm.mem_iff.1 this)
  have hind : ∀ l, l < levels → ∀ (s t : Nat), s ≠ t → ∀ (c c' : List Ins),
      ((parts l).map (codeI a.pat))[s]? = some c → ((parts l).map (codeI a.pat))[t]? = some c' →
      ∀ i ∈ c, ∀ j ∈ c', Mach.Indep (step A) i j := by
    intro l hl s t hst c c' h1 h2 i hi j hj
    rw [List.getElem?_map] at h1 h2
    obtain ⟨P, hP, rfl⟩ := Option.map_eq_some_iff.mp h1
    obtain ⟨Q, hQ, rfl⟩ := Option.map_eq_some_iff.mp h2
    exact indep_of_free hA (level_free hT hN hl hst hP hQ hi hj)
  have hseq : ∀ l, l < levels → ∀ x, forEach (nestedRows parts l) (column A a.p a.i) a.x = ok x →
      ∃ y, Mach.seqAll (step A) (none, none) ((parts l).map (codeI a.pat)) x = ok y ∧
        forEach (nestedRows parts (l + 1)) (column A a.p a.i) a.x = ok y := by
    intro l hl x hxx
    obtain ⟨y, hy, _⟩ := wp_iff.1 (hnest (l + 1) hl)
    refine ⟨y, ?_, hy⟩
    rw [seqAll_eq hT (parts l) (hlt l hl)]
    rw [nestedRows_succ, forEach_append, hxx, ok_bind] at hy
    exact hy
  refine ⟨xs, hser, hs2.isIC0 hT hx (List.Perm.refl _) (topo_range hT) (.inr rfl), ?_, ?_⟩
  · intro sch
    have : wpl (Mach.levelLoop (step A) (none, none) levels ptr thread sch a.x) (fun y => y = xs) := by
      unfold Mach.levelLoop
      refine wpl_mono (forRange_wpl (fun l x => forEach (nestedRows parts l) (column A a.p a.i) a.x = ok x)
        (Nat.zero_le levels) (by simp [nestedRows, forEach]) ?_) (fun y hy => ?_)
      · intro l x _ hl hxx
        obtain ⟨lo, hi, h1, h2, h3⟩ := hthr l hl
        rw [h1, h2]
        simp only [ok_bind]
        rw [h3]
        simp only [ok_bind]
        obtain ⟨y, hy1, hy2⟩ := hseq l hl x hxx
        rcases Mach.parFor_seq (step A) (none, none) _ (sch l) x y (hind l hl) hy1 with h | h
        · rw [h, wpl_ok]; exact hy2
        · rw [h]; trivial
      · rw [hlast] at hy
        cases hy
        rfl
    rcases wpl_iff.1 this with h | ⟨y, h, rfl⟩
    · exact .inr h
    · exact .inl h
  · have hex : ∀ l, ∃ s : List Nat, l < levels → ∀ x y, forEach (nestedRows parts l) (column A a.p a.i) a.x = ok x →
        forEach (nestedRows parts (l + 1)) (column A a.p a.i) a.x = ok y →
        Mach.parFor (step A) (none, none) ((parts l).map (codeI a.pat)) s x = ok y := by
      intro l
      by_cases hl : l < levels
      · obtain ⟨x, hx1, _⟩ := wp_iff.1 (hnest l (by omega))
        obtain ⟨y, hy1, hy2⟩ := hseq l hl x hx1
        obtain ⟨s, hs⟩ := parFor_exists (step A) (none, none) _ x y (hind l hl) hy1
        refine ⟨s, fun _ x' y' h1 h2 => ?_⟩
        rw [hx1] at h1
        rw [hy2] at h2
        cases h1
        cases h2
        exact hs
      · exact ⟨[], fun h => absurd h hl⟩
    choose sch hsch using hex
    refine ⟨sch, ?_⟩
    have : wp (Mach.levelLoop (step A) (none, none) levels ptr thread sch a.x) (fun y => y = xs) := by
      unfold Mach.levelLoop
      refine forRange_wp' (fun l x => forEach (nestedRows parts l) (column A a.p a.i) a.x = ok x)
        (Nat.zero_le levels) (by simp [nestedRows, forEach]) ?_ (fun y hy => ?_)
      · intro l x _ hl hxx
        obtain ⟨lo, hi, h1, h2, h3⟩ := hthr l hl
        rw [h1, h2]
        simp only [ok_bind]
        rw [h3]
        simp only [ok_bind]
        obtain ⟨y, hy1, hy2⟩ := hseq l hl x hxx
        rw [hsch l hl x y hxx hy2, wp_ok]
        exact hy2
      · rw [hlast] at hy
        cases hy
        rfl
    obtain ⟨y, h1, rfl⟩ := wp_iff.1 this
    exact h1

end Verif.Ic0
