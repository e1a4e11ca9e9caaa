import Verif.Proof.P2P

/-! Point-to-point solvers: the invariant of the interleaved threads. -/

namespace Verif.P2P
open Res Exec Relation

variable {V : Type} {A : Arith V} {m : Mat V}

theorem bind_ok_inv {α β : Type} {x : Res α} {f : α → Res β} {b : β} (h : (x >>= f) = ok b) :
    ∃ a, x = ok a ∧ f a = ok b := by
  cases x with
  | ok a => exact ⟨a, rfl, h⟩
  | ub => cases h
  | exn => cases h
  | nofuel => cases h

/-- The instructions of a coarse step. -/
noncomputable def ins (h : RowsOk m) : Atom → List (PIns V)
  | .W p => [.wait p]
  | .R i => (rowI h i).map .acc
  | .N t => [.notify t]

/-- A thread is computing row `i`: it has made the accesses `pre` and has `post` before it.  Run
alone on the final values with `b[i]` in place `i`, the accesses `pre` give the same registers and
the same value in place `i`. -/
structure Running (A : Arith V) (h : RowsOk m) (b xs : List V) (x : List V) (r1 r2 : Option V)
    (i : Nat) (post : List (Instr V)) : Prop where
  ex : ∃ (pre : List (Instr V)) (bi : V) (s1 s2 : Option V) (cpu : Cpu V), rowI h i = pre ++ post ∧
    b[i]? = some bi ∧ solo A pre ⟨s1, s2, xs.set i bi⟩ = ok cpu ∧ cpu.r1 = r1 ∧ cpu.r2 = r2 ∧
    x[i]? = cpu.mem[i]? ∧ ∀ a, a ≠ i → cpu.mem[a]? = xs[a]?

/-- Where a thread is. -/
def ThrAt (A : Arith V) (h : RowsOk m) (P : Plan) (b xs : List V) (done : Nat → List Atom)
    (x : List V) (th : PThr V) (rest : List Atom) : Prop :=
  (th.code = rest.flatMap (ins h) ∧ ∀ i, Atom.R i ∈ rest → x[i]? = b[i]?) ∨
  ∃ i rest' post, rest = Atom.R i :: rest' ∧ post ≠ [] ∧
    th.code = post.map .acc ++ rest'.flatMap (ins h) ∧
    (∀ u, m.RowDep u i → RowDone P done u) ∧ Running A h b xs x th.r1 th.r2 i post ∧
    ∀ j, Atom.R j ∈ rest' → x[j]? = b[j]?

/-- Invariant of the interleaved threads. -/
structure Inv (A : Arith V) (h : RowsOk m) (P : Plan) (b xs : List V) (done : Nat → List Atom)
    (ths : List (PThr V)) (s : Shared V) : Prop where
  hist : Hist P done
  len : ths.length = P.T
  xlen : s.x.length = m.n
  flen : P.ntasks ≤ s.flags.length
  flag : ∀ a, a < P.ntasks → (s.flags.getD a 0 ≠ 0 ↔ Fin' P done a)
  rows : ∀ i, RowDone P done i → s.x[i]? = xs[i]?
  thr : ∀ t, t < P.T → ∃ th rest, ths[t]? = some th ∧ P.atoms t = done t ++ rest ∧
    ThrAt A h P b xs done s.x th rest

theorem RowDone.mono {P : Plan} {done : Nat → List Atom} {t : Nat} {x : Atom} {i : Nat}
    (h : RowDone P done i) : RowDone P (Function.update done t (done t ++ [x])) i := by
  obtain ⟨t', ht', hi⟩ := h
  refine ⟨t', ht', ?_⟩
  by_cases hc : t' = t
  · subst hc; simp [hi]
  · rw [Function.update_of_ne hc]; exact hi

theorem Fin'.mono {P : Plan} {done : Nat → List Atom} {t : Nat} {x : Atom} {i : Nat}
    (h : Fin' P done i) : Fin' P (Function.update done t (done t ++ [x])) i := by
  obtain ⟨t', ht', hi⟩ := h
  refine ⟨t', ht', ?_⟩
  by_cases hc : t' = t
  · subst hc; simp [hi]
  · rw [Function.update_of_ne hc]; exact hi

theorem mem_update {done : Nat → List Atom} {t t' : Nat} {x z : Atom}
    (h : z ∈ Function.update done t (done t ++ [x]) t') : z ∈ done t' ∨ (t' = t ∧ z = x) := by
  by_cases hc : t' = t
  · subst hc
    rw [Function.update_self, List.mem_append, List.mem_singleton] at h
    rcases h with h | h
    · exact .inl h
    · exact .inr ⟨rfl, h⟩
  · rw [Function.update_of_ne hc] at h
    exact .inl h

/-- Another thread makes a step that changes at most row `i` of its own. -/
theorem ThrAt.frame {h : RowsOk m} {P : Plan} {b xs : List V} {done done' : Nat → List Atom}
    {x x' : List V} {th : PThr V} {rest : List Atom} (hA : ThrAt A h P b xs done x th rest)
    (hd : ∀ i, RowDone P done i → RowDone P done' i)
    (hx : ∀ j, Atom.R j ∈ rest → x'[j]? = x[j]?) : ThrAt A h P b xs done' x' th rest := by
  rcases hA with ⟨h1, h2⟩ | ⟨i, rest', post, h1, h2, h3, h4, ⟨pre, bi, s1, s2, cpu, g1, g2, g3, g4, g5,
    g6, g7⟩, h6⟩
  · exact .inl ⟨h1, fun i hi => by rw [hx i hi]; exact h2 i hi⟩
  · refine .inr ⟨i, rest', post, h1, h2, h3, fun u hu => hd u (h4 u hu),
      ⟨pre, bi, s1, s2, cpu, g1, g2, g3, g4, g5, ?_, g7⟩, ?_⟩
    · rw [hx i (by rw [h1]; simp)]; exact g6
    · intro j hj
      rw [hx j (by rw [h1]; simp [hj])]; exact h6 j hj

/-- The other threads after a step of thread `t`. -/
theorem Inv.others {h : RowsOk m} {P : Plan} {dep : Nat → Nat → Prop} (hP : P.Good m.n dep) {b xs : List V}
    {done : Nat → List Atom} {ths : List (PThr V)} {s : Shared V} (hI : Inv A h P b xs done ths s)
    {t : Nat} (ht : t < P.T) {done' : Nat → List Atom} {th' : PThr V} {x' : List V}
    (hd : ∀ i, RowDone P done i → RowDone P done' i) (hd' : ∀ t', t' ≠ t → done' t' = done t')
    (hx : ∀ j, Atom.R j ∉ P.atoms t → x'[j]? = s.x[j]?)
    (hself : ∃ rest, P.atoms t = done' t ++ rest ∧ ThrAt A h P b xs done' x' th' rest) :
    ∀ t', t' < P.T → ∃ th rest, (ths.set t th')[t']? = some th ∧ P.atoms t' = done' t' ++ rest ∧
      ThrAt A h P b xs done' x' th rest := by
  intro t' ht'
  by_cases hc : t' = t
  · subst hc
    obtain ⟨rest, h1, h2⟩ := hself
    exact ⟨th', rest, by rw [List.getElem?_set_self (by rw [hI.len]; exact ht)], h1, h2⟩
  · obtain ⟨th, rest, h1, h2, h3⟩ := hI.thr t' ht'
    refine ⟨th, rest, ?_, by rw [hd' t' hc]; exact h2, h3.frame hd ?_⟩
    · rw [List.getElem?_set_ne (fun h => hc h.symm)]; exact h1
    · intro j hj
      apply hx
      intro hc'
      exact hc (hP.row_thread ht' ht (by rw [h2]; simp [hj]) hc')

/-- One access of the row a thread is computing. -/
theorem Inv.run {h : RowsOk m} {P : Plan} (hP : P.Good m.n m.RowDep) {b xs : List V}
    (hS : m.Solution A b xs)
    {done : Nat → List Atom} {ths : List (PThr V)} {s : Shared V} (hI : Inv A h P b xs done ths s)
    {t : Nat} (ht : t < P.T) {th : PThr V} (hth : ths[t]? = some th) {i : Nat} {rest' : List Atom}
    {iz : Instr V} {post : List (Instr V)}
    (h1 : P.atoms t = done t ++ Atom.R i :: rest')
    (h3 : th.code = (iz :: post).map .acc ++ rest'.flatMap (ins h))
    (h4 : ∀ u, m.RowDep u i → RowDone P done u)
    (h5 : Running A h b xs s.x th.r1 th.r2 i (iz :: post))
    (h6 : ∀ j, Atom.R j ∈ rest' → s.x[j]? = b[j]?) :
    ∃ th' s' done', stepThr A th s = ok (th', s') ∧ Inv A h P b xs done' (ths.set t th') s' ∧
      th'.code.length < th.code.length := by
  obtain ⟨pre, bi, s1, s2, cpu, g1, g2, g3, g4, g5, g6, g7⟩ := h5
  have hia : Atom.R i ∈ P.atoms t := by rw [h1]; simp
  obtain ⟨a, ha, ha'⟩ := List.mem_flatMap.1 hia
  have hi : i < m.n := hP.mem_row_lt (hP.task_lt ht ha) (Plan.Good.mem_R ha')
  -- the whole row alone
  obtain ⟨v, hv1, hv2⟩ := hS.2 i hi
  have hxi : i < xs.length := by rw [hS.1]; exact hi
  have hrow : m.rowEq A (xs.set i bi) (xs.set i bi) i = some v := by
    rw [← hv2]
    apply rowEq_congr
    · rw [List.getElem?_set_self hxi, g2]
    · intro e he
      rw [List.getElem?_set_ne (fun hc => h.offNe i hi e he hc.symm)]
  obtain ⟨q1, q2, hsolo⟩ := solo_row (h.hd hi) (h.offNe i hi) hrow s1 s2
  have hrI : rowI h i = rowInstrs m i (h.d hi) := by rw [rowI, dif_pos hi]
  rw [← hrI, g1, solo_append, g3] at hsolo
  simp only [ok_bind, solo] at hsolo
  obtain ⟨cpu', hex, hsolo⟩ := bind_ok_inv hsolo
  have hmem : iz ∈ rowI h i := by rw [g1]; simp
  have hagree : s.x[iz.addr]? = cpu.mem[iz.addr]? := by
    rcases touched_rowI h hi (mem_touched_of_mem hmem) with hc | hc
    · rw [hc]; exact g6
    · have hne : iz.addr ≠ i := by
        obtain ⟨_, l, hl⟩ := hc
        exact h.offNe i hi _ hl
      rw [g7 _ hne, hI.rows _ (h4 _ hc)]
  have hex' : iz.exec A ⟨th.r1, th.r2, cpu.mem⟩ = ok cpu' := by rw [← g4, ← g5]; exact hex
  obtain ⟨c', e1, e2, e3, e4, e5, e6, e7, e8⟩ := exec_agree hex' hagree
  have hw : ∀ j, j ≠ i → c'.mem[j]? = s.x[j]? ∧ cpu'.mem[j]? = cpu.mem[j]? := by
    intro j hj
    refine e7 j fun hc => hj ?_
    have : j ∈ writes (rowI h i) := List.mem_flatMap.2 ⟨iz, hmem, hc⟩
    exact (writes_rowI h hi j).1 this
  have hown : c'.mem[i]? = cpu'.mem[i]? := by
    by_cases hc : i = iz.addr
    · rw [hc]; exact e6
    · rw [(e8 i hc).1, (e8 i hc).2]; exact g6
  have honce := hP.row_once ht h1
  have hnd : ∀ t', t' < P.T → Atom.R i ∉ done t' := by
    intro t' ht' hc
    obtain ⟨r, hr⟩ := hI.hist.pre t' ht'
    have : t' = t := hP.row_thread ht' ht (by rw [← hr]; simp [hc]) hia
    subst this
    exact honce.1 hc
  have hstep : stepThr A th s = ok (⟨post.map .acc ++ rest'.flatMap (ins h), c'.r1, c'.r2⟩,
      { s with x := c'.mem }) := by
    unfold stepThr
    rw [h3]
    simp only [List.map_cons, List.cons_append]
    rw [e1]
    rfl
  have hrows : ∀ j, RowDone P done j → c'.mem[j]? = xs[j]? := by
    intro j hj
    have hji : j ≠ i := by
      rintro rfl
      obtain ⟨t', ht', hc⟩ := hj
      exact hnd t' ht' hc
    rw [(hw j hji).1]; exact hI.rows j hj
  have hframe : ∀ j, Atom.R j ∉ P.atoms t → c'.mem[j]? = s.x[j]? := by
    intro j hj
    exact (hw j (by rintro rfl; exact hj hia)).1
  have hrest : ∀ j, Atom.R j ∈ rest' → c'.mem[j]? = b[j]? := by
    intro j hj
    rw [(hw j (by rintro rfl; exact honce.2 hj)).1]; exact h6 j hj
  have hlt : (post.map PIns.acc ++ rest'.flatMap (ins h)).length < th.code.length := by
    rw [h3]; simp
  by_cases hp : post = []
  · -- the row is finished
    subst hp
    have hc'' : cpu' = ⟨q1, q2, (xs.set i bi).set i v⟩ := by
      simpa [solo] using hsolo
    have hfin : c'.mem[i]? = xs[i]? := by
      rw [hown, hc'', List.set_set, List.getElem?_set_self hxi, hv1]
    refine ⟨_, _, Function.update done t (done t ++ [Atom.R i]), hstep, ?_, hlt⟩
    have hfd : ∀ a, Fin' P (Function.update done t (done t ++ [Atom.R i])) a ↔ Fin' P done a := by
      intro a
      refine ⟨?_, Fin'.mono⟩
      rintro ⟨t', ht', hN⟩
      rcases mem_update hN with hN | ⟨_, hN⟩
      · exact ⟨t', ht', hN⟩
      · cases hN
    refine ⟨⟨?_, ?_⟩, by simpa using hI.len, by rw [e4]; exact hI.xlen, hI.flen, ?_, ?_, ?_⟩
    · intro t' ht'
      by_cases hc : t' = t
      · subst hc
        rw [Function.update_self]
        exact ⟨rest', by rw [h1]; simp⟩
      · rw [Function.update_of_ne hc]; exact hI.hist.pre t' ht'
    · intro t' ht' p hp
      rcases mem_update hp with hp | ⟨_, hp⟩
      · exact (hI.hist.waited t' ht' p hp).mono
      · cases hp
    · intro a ha
      rw [hfd]; exact hI.flag a ha
    · rintro j ⟨t', ht', hj⟩
      rcases mem_update hj with hj | ⟨_, hj⟩
      · exact hrows j ⟨t', ht', hj⟩
      · cases hj; exact hfin
    · refine hI.others hP ht (fun _ => RowDone.mono) (fun t' hc => Function.update_of_ne hc _ _) hframe ?_
      refine ⟨rest', by rw [Function.update_self, h1]; simp, .inl ⟨by simp, hrest⟩⟩
  · refine ⟨_, _, done, hstep, ?_, hlt⟩
    refine ⟨hI.hist, by simpa using hI.len, by rw [e4]; exact hI.xlen, hI.flen, hI.flag, hrows, ?_⟩
    refine hI.others hP ht (fun _ h => h) (fun _ _ => rfl) hframe ?_
    refine ⟨_, h1, .inr ⟨i, rest', post, rfl, hp, rfl, h4, ⟨pre ++ [iz], bi, s1, s2, cpu', ?_, g2, ?_,
      e2.symm, e3.symm, hown, ?_⟩, hrest⟩⟩
    · rw [g1]; simp
    · rw [solo_append, g3]
      simp only [ok_bind, solo, hex]
    · intro a ha
      rw [(hw a ha).2]; exact g7 a ha

theorem rowI_ne_nil (h : RowsOk m) {i : Nat} (hi : i < m.n) : rowI h i ≠ [] := by
  rw [rowI, dif_pos hi, rowInstrs]
  simp

/-- Every step of a thread succeeds and keeps the invariant.  It makes progress unless the thread is
finished or waits for a task that is not finished. -/
theorem Inv.step {h : RowsOk m} {P : Plan} (hP : P.Good m.n m.RowDep) {b xs : List V}
    (hb : b.length = m.n) (hS : m.Solution A b xs)
    {done : Nat → List Atom} {ths : List (PThr V)} {s : Shared V} (hI : Inv A h P b xs done ths s)
    {t : Nat} (ht : t < P.T) {th : PThr V} (hth : ths[t]? = some th) :
    ∃ th' s' done', stepThr A th s = ok (th', s') ∧ Inv A h P b xs done' (ths.set t th') s' ∧
      (th'.code.length < th.code.length ∨ (P.atoms t = done t) ∨
        ∃ p rest, P.atoms t = done t ++ Atom.W p :: rest ∧ ¬ Fin' P done p) := by
  obtain ⟨th0, rest, h1, h2, h3⟩ := hI.thr t ht
  rw [hth] at h1
  cases h1
  have hself : ths.set t th = ths := by
    apply List.ext_getElem?
    intro j
    by_cases hj : t = j
    · subst hj
      rw [List.getElem?_set_self (by rw [hI.len]; exact ht), hth]
    · rw [List.getElem?_set_ne hj]
  rcases h3 with ⟨h3, h4⟩ | ⟨i, rest', post, k1, k2, k3, k4, k5, k6⟩
  · cases rest with
    | nil =>
      refine ⟨th, s, done, ?_, by rw [hself]; exact hI, .inr (.inl (by simpa using h2))⟩
      unfold stepThr
      rw [h3]
      rfl
    | cons x rest =>
      have hx : x ∈ P.atoms t := by rw [h2]; simp
      obtain ⟨a, ha, hxa⟩ := List.mem_flatMap.1 hx
      have hal := hP.task_lt ht ha
      have hpre : ∀ t', t' < P.T →
          Function.update done t (done t ++ [x]) t' <+: P.atoms t' := by
        intro t' ht'
        by_cases hc : t' = t
        · subst hc
          rw [Function.update_self]
          exact ⟨rest, by rw [h2]; simp⟩
        · rw [Function.update_of_ne hc]; exact hI.hist.pre t' ht'
      cases x with
      | W p =>
        have hp : p < P.ntasks := hP.par a hal p (Plan.Good.mem_W hxa)
        have hcode : th.code = .wait p :: rest.flatMap (ins h) := by rw [h3]; rfl
        have hrd : rd s.flags p = ok (s.flags.getD p 0) :=
          rd_getD 0 (by have := hI.flen; omega)
        by_cases hf : s.flags.getD p 0 = 0
        · refine ⟨th, s, done, ?_, by rw [hself]; exact hI, .inr (.inr ⟨p, rest, h2, ?_⟩)⟩
          · unfold stepThr
            rw [hcode]
            dsimp only
            rw [hrd, ok_bind, if_pos hf]
          · intro hc
            exact ((hI.flag p hp).2 hc) hf
        · have hfp : Fin' P done p := (hI.flag p hp).1 hf
          refine ⟨{ th with code := rest.flatMap (ins h) }, s,
            Function.update done t (done t ++ [Atom.W p]), ?_, ?_, .inl (by rw [hcode]; simp)⟩
          · unfold stepThr
            rw [hcode]
            dsimp only
            rw [hrd, ok_bind, if_neg hf]
          · have hfd : ∀ a, Fin' P (Function.update done t (done t ++ [Atom.W p])) a ↔
                Fin' P done a := by
              intro a
              refine ⟨?_, Fin'.mono⟩
              rintro ⟨t', ht', hN⟩
              rcases mem_update hN with hN | ⟨_, hN⟩
              · exact ⟨t', ht', hN⟩
              · cases hN
            refine ⟨⟨hpre, ?_⟩, by simpa using hI.len, hI.xlen, hI.flen, ?_, ?_, ?_⟩
            · intro t' ht' q hq
              rcases mem_update hq with hq | ⟨_, hq⟩
              · exact (hI.hist.waited t' ht' q hq).mono
              · cases hq; exact hfp.mono
            · intro a ha
              rw [hfd]; exact hI.flag a ha
            · rintro j ⟨t', ht', hj⟩
              rcases mem_update hj with hj | ⟨_, hj⟩
              · exact hI.rows j ⟨t', ht', hj⟩
              · cases hj
            · refine hI.others hP ht (fun _ => RowDone.mono)
                (fun t' hc => Function.update_of_ne hc _ _) (fun _ _ => rfl) ?_
              exact ⟨rest, by rw [Function.update_self, h2]; simp, .inl ⟨rfl, fun i hi =>
                h4 i (by simp [hi])⟩⟩
      | N a' =>
        have haa : a' = a := Plan.Good.mem_N hxa
        subst haa
        have hcode : th.code = .notify a' :: rest.flatMap (ins h) := by rw [h3]; rfl
        have hwr : wr s.flags a' 1 = ok (s.flags.set a' 1) :=
          wr_eq (by have := hI.flen; omega)
        refine ⟨{ th with code := rest.flatMap (ins h) }, { s with flags := s.flags.set a' 1 },
          Function.update done t (done t ++ [Atom.N a']), ?_, ?_, .inl (by rw [hcode]; simp)⟩
        · unfold stepThr
          rw [hcode]
          dsimp only
          rw [hwr, ok_bind]
        · refine ⟨⟨hpre, ?_⟩, by simpa using hI.len, hI.xlen, by
            rw [List.length_set]; exact hI.flen, ?_, ?_, ?_⟩
          · intro t' ht' q hq
            rcases mem_update hq with hq | ⟨_, hq⟩
            · exact (hI.hist.waited t' ht' q hq).mono
            · cases hq
          · intro c hc
            dsimp only
            rw [getD_set]
            by_cases hca : c = a'
            · subst hca
              have hcl : c < s.flags.length := by have := hI.flen; omega
              simp only [hcl, and_true, if_true, ne_eq, one_ne_zero, not_false_eq_true, true_iff]
              exact ⟨t, ht, by rw [Function.update_self]; simp⟩
            · rw [if_neg (fun hh => hca (by first | exact hh.1 | exact hh.1.symm)), hI.flag c hc]
              refine ⟨Fin'.mono, ?_⟩
              rintro ⟨t', ht', hN⟩
              rcases mem_update hN with hN | ⟨_, hN⟩
              · exact ⟨t', ht', hN⟩
              · cases hN; exact absurd rfl hca
          · rintro j ⟨t', ht', hj⟩
            rcases mem_update hj with hj | ⟨_, hj⟩
            · exact hI.rows j ⟨t', ht', hj⟩
            · cases hj
          · refine hI.others hP ht (fun _ => RowDone.mono)
              (fun t' hc => Function.update_of_ne hc _ _) (fun _ _ => rfl) ?_
            exact ⟨rest, by rw [Function.update_self, h2]; simp, .inl ⟨rfl, fun i hi =>
              h4 i (by simp [hi])⟩⟩
      | R i =>
        have hi : i < m.n := hP.mem_row_lt hal (Plan.Good.mem_R hxa)
        obtain ⟨iz, post, hri⟩ := List.exists_cons_of_ne_nil (rowI_ne_nil h hi)
        have hbi : b[i]? = some (b[i]'(by omega)) := List.getElem?_eq_getElem (by omega)
        obtain ⟨th', s', done', g1, g2, g3⟩ := hI.run hP hS ht hth (iz := iz) (post := post) h2
          (by rw [h3, List.flatMap_cons, ← hri]; rfl) (fun u hu => hI.hist.deps hP ht h2 hu)
          ⟨[], b[i]'(by omega), th.r1, th.r2, ⟨th.r1, th.r2, xs.set i (b[i]'(by omega))⟩, by
            rw [hri]; rfl, hbi, rfl, rfl, rfl, by
            rw [h4 i (by simp), hbi, List.getElem?_set_self (by rw [hS.1]; exact hi)], by
            intro a ha
            rw [List.getElem?_set_ne (fun hc => ha hc.symm)]⟩
          (fun j hj => h4 j (by simp [hj]))
        exact ⟨th', s', done', g1, g2, .inl g3⟩
  · obtain ⟨iz, post', rfl⟩ := List.exists_cons_of_ne_nil k2
    subst k1
    obtain ⟨th', s', done', g1, g2, g3⟩ := hI.run hP hS ht hth h2 k3 k4 k5 k6
    exact ⟨th', s', done', g1, g2, .inl g3⟩

theorem runSched_inv {h : RowsOk m} {P : Plan} (hP : P.Good m.n m.RowDep) {b xs : List V}
    (hb : b.length = m.n) (hS : m.Solution A b xs) : ∀ (sch : List Nat) (ths : List (PThr V))
    (s : Shared V) (done : Nat → List Atom), Inv A h P b xs done ths s →
    ∃ ths' s' done', runSched A sch ths s = ok (ths', s') ∧ Inv A h P b xs done' ths' s' := by
  intro sch
  induction sch with
  | nil => intro ths s done hI; exact ⟨ths, s, done, rfl, hI⟩
  | cons t sch ih =>
    intro ths s done hI
    unfold runSched
    cases hth : ths[t]? with
    | none => exact ih ths s done hI
    | some th =>
      have ht : t < P.T := by
        rw [← hI.len]
        by_contra hc
        rw [List.getElem?_eq_none (by omega)] at hth
        cases hth
      obtain ⟨th', s', done', g1, g2, _⟩ := hI.step hP hb hS ht hth
      dsimp only
      rw [g1, ok_bind]
      exact ih _ _ _ g2

/-- When all threads are finished, the vector holds the solution. -/
theorem Inv.final {h : RowsOk m} {P : Plan} (hP : P.Good m.n m.RowDep) {b xs : List V}
    (hS : m.Solution A b xs)
    {done : Nat → List Atom} {ths : List (PThr V)} {s : Shared V} (hI : Inv A h P b xs done ths s)
    (hall : ths.all (fun th => th.code.isEmpty) = true) : s.x = xs := by
  have hdone : ∀ t, t < P.T → P.atoms t = done t := by
    intro t ht
    obtain ⟨th, rest, h1, h2, h3⟩ := hI.thr t ht
    have hemp : th.code = [] := by
      have := List.all_eq_true.1 hall th (List.mem_of_getElem? h1)
      simpa using this
    rcases h3 with ⟨h3, _⟩ | ⟨i, rest', post, _, k2, k3, _⟩
    · cases rest with
      | nil => simpa using h2
      | cons x rest =>
        exfalso
        rw [hemp, List.flatMap_cons] at h3
        have hx := (List.append_eq_nil_iff.1 h3.symm).1
        cases x with
        | W p => simp [ins] at hx
        | N a => simp [ins] at hx
        | R i =>
          have hxa : Atom.R i ∈ P.atoms t := by rw [h2]; simp
          obtain ⟨a, ha, hxa⟩ := List.mem_flatMap.1 hxa
          have hi : i < m.n := hP.mem_row_lt (hP.task_lt ht ha) (Plan.Good.mem_R hxa)
          simp [ins] at hx
          exact rowI_ne_nil h hi hx
    · rw [hemp] at k3
      have := (List.append_eq_nil_iff.1 k3.symm).1
      simp at this
      exact absurd this k2
  apply List.ext_getElem?
  intro i
  rcases Nat.lt_or_ge i m.n with hi | hi
  · obtain ⟨a, ha, hia⟩ := hP.exists_task hi
    obtain ⟨t, ht, hat⟩ := (hP.cover a).1 ha
    refine hI.rows i ⟨t, ht, ?_⟩
    rw [← hdone t ht]
    exact List.mem_flatMap.2 ⟨a, hat, by unfold Plan.taskAtoms; simp [hia]⟩
  · rw [List.getElem?_eq_none (by rw [hI.xlen]; exact hi), List.getElem?_eq_none (by rw [hS.1]; exact hi)]

/-- Some thread that is not finished can go on. -/
theorem Hist.progress {P : Plan} {n : Nat} {dep : Nat → Nat → Prop} (hP : P.Good n dep)
    {done : Nat → List Atom} (hH : Hist P done) {t₀ : Nat} (ht₀ : t₀ < P.T)
    (hne : P.atoms t₀ ≠ done t₀) :
    ∃ t, t < P.T ∧ P.atoms t ≠ done t ∧
      ¬ ∃ p rest, P.atoms t = done t ++ Atom.W p :: rest ∧ ¬ Fin' P done p := by
  by_contra hcon
  push Not at hcon
  -- blocked tasks
  let B : Fin P.ntasks → Prop := fun a => ∃ t p rest l1 l2 q, t < P.T ∧
    P.atoms t = done t ++ Atom.W p :: rest ∧ ¬ Fin' P done p ∧ P.tasks t = l1 ++ a.1 :: l2 ∧
    done t = l1.flatMap P.taskAtoms ++ q ∧ p ∈ P.parents a.1
  have hB : ∀ t, t < P.T → P.atoms t ≠ done t → ∃ a, B a ∧ a.1 ∈ P.tasks t := by
    intro t ht hne
    obtain ⟨p, rest, e1, e2⟩ := hcon t ht hne
    obtain ⟨l1, a, l2, q, q', f1, f2, f3, f4⟩ := flatMap_split _ _ _ _ _ e1
    have ha : a ∈ P.tasks t := by rw [f1]; simp
    exact ⟨⟨a, hP.task_lt ht ha⟩, ⟨t, p, rest, l1, l2, q, ht, e1, e2, f1, f3,
      Plan.Good.mem_W (by rw [f2]; simp)⟩, ha⟩
  let r : Fin P.ntasks → Fin P.ntasks → Prop := fun a b => TransGen P.Bef a.1 b.1
  have : IsTrans (Fin P.ntasks) r := ⟨fun a b c h1 h2 => TransGen.trans h1 h2⟩
  have : Std.Irrefl r := ⟨fun a h => hP.acyclic a.1 a.2 h⟩
  have hwf : WellFounded r := Finite.wellFounded_of_trans_of_irrefl r
  obtain ⟨a0, ha0, _⟩ := hB t₀ ht₀ hne
  obtain ⟨a, ha, hmin⟩ := hwf.has_min {a | B a} ⟨a0, ha0⟩
  obtain ⟨t, p, rest, l1, l2, q, ht, e1, e2, e3, e4, e5⟩ := ha
  have hp : p < P.ntasks := hP.par a.1 a.2 p e5
  obtain ⟨t', ht', hpt⟩ := (hP.cover p).1 hp
  have hne' : P.atoms t' ≠ done t' := by
    intro hc
    apply e2
    refine ⟨t', ht', ?_⟩
    rw [← hc]
    exact List.mem_flatMap.2 ⟨p, hpt, by unfold Plan.taskAtoms; simp⟩
  obtain ⟨a', hBa, hat'⟩ := hB t' ht' hne'
  have hBa' := hBa
  obtain ⟨t2, p2, rest2, k1, k2, q2, ht2, g1, g2, g3, g4, g5⟩ := hBa
  have : t' = t2 := hP.uniq t' t2 a'.1 ht' ht2 hat' (by rw [g3]; simp)
  subst this
  have hle : a'.1 = p ∨ P.Bef a'.1 p := by
    rw [g3, List.mem_append, List.mem_cons] at hpt
    rcases hpt with hpt | hpt | hpt
    · exfalso
      apply e2
      refine ⟨t', ht', ?_⟩
      rw [g4]
      exact List.mem_append_left _ (List.mem_flatMap.2 ⟨p, hpt, by unfold Plan.taskAtoms; simp⟩)
    · exact .inl hpt.symm
    · obtain ⟨u1, u2, hu⟩ := List.append_of_mem hpt
      refine .inr (.thread (pre := k1 ++ a'.1 :: u1) (post := u2) ht' (by rw [g3, hu]; simp) (by simp))
  have hpa : P.Bef p a.1 := .parent e5
  apply hmin a' hBa'
  rcases hle with hle | hle
  · show TransGen P.Bef a'.1 a.1
    rw [hle]; exact .single hpa
  · exact .head hle (.single hpa)

theorem runSched_append (l₁ l₂ : List Nat) (ths : List (PThr V)) (s : Shared V) :
    runSched A (l₁ ++ l₂) ths s = (runSched A l₁ ths s >>= fun r => runSched A l₂ r.1 r.2) := by
  induction l₁ generalizing ths s with
  | nil => rfl
  | cons t l ih =>
    simp only [List.cons_append, runSched]
    cases ths[t]? with
    | none => exact ih ths s
    | some th =>
      dsimp only
      cases stepThr A th s with
      | ok r => simp only [ok_bind]; exact ih _ _
      | _ => rfl

/-- Every execution can be completed. -/
theorem Inv.complete {h : RowsOk m} {P : Plan} (hP : P.Good m.n m.RowDep) {b xs : List V}
    (hb : b.length = m.n) (hS : m.Solution A b xs) : ∀ (k : Nat)
    {done : Nat → List Atom} {ths : List (PThr V)} {s : Shared V}, Inv A h P b xs done ths s →
    (ths.map fun th => th.code.length).sum = k →
    ∃ sch ths' s', runSched A sch ths s = ok (ths', s') ∧
      ths'.all (fun th => th.code.isEmpty) = true := by
  intro k
  induction k using Nat.strong_induction_on with
  | _ k ih =>
    intro done ths s hI hk
    by_cases hall : ths.all (fun th => th.code.isEmpty) = true
    · exact ⟨[], ths, s, rfl, hall⟩
    · obtain ⟨t₀, ht₀, hc₀⟩ : ∃ t, ∃ ht : t < ths.length, ths[t].code ≠ [] := by
        by_contra hc
        push Not at hc
        apply hall
        rw [List.all_eq_true]
        intro th hth
        obtain ⟨t, ht, rfl⟩ := List.mem_iff_getElem.1 hth
        rw [hc t ht]; rfl
      have hne : ∀ t, ∀ ht : t < ths.length, ths[t].code ≠ [] → P.atoms t ≠ done t := by
        intro t ht hc heq
        have htT : t < P.T := by rw [← hI.len]; exact ht
        obtain ⟨th, rest, h1, h2, h3⟩ := hI.thr t htT
        rw [List.getElem?_eq_getElem ht] at h1
        cases h1
        rw [heq] at h2
        have : rest = [] := by simpa using h2
        subst this
        rcases h3 with ⟨h3, _⟩ | ⟨i, rest', post, k1, _⟩
        · rw [h3] at hc; exact hc rfl
        · cases k1
      have hT₀ : t₀ < P.T := by rw [← hI.len]; exact ht₀
      obtain ⟨t, ht, hnt, hnb⟩ := hI.hist.progress hP hT₀ (hne t₀ ht₀ hc₀)
      have htl : t < ths.length := by rw [hI.len]; exact ht
      obtain ⟨th', s', done', g1, g2, g3⟩ := hI.step hP hb hS ht (List.getElem?_eq_getElem htl)
      rcases g3 with g3 | g3 | g3
      · have hlt : ((ths.set t th').map fun th => th.code.length).sum < k := by
          rw [← hk, List.map_set]
          have hl2 : t < (ths.map (fun th => th.code.length)).length := by simpa using htl
          rw [List.sum_set]
          conv_rhs => rw [← List.sum_take_add_sum_drop _ t, List.drop_eq_getElem_cons hl2]
          simp [htl]
          omega
        obtain ⟨sch, ths', s'', e1, e2⟩ := ih _ hlt g2 rfl
        refine ⟨t :: sch, ths', s'', ?_, e2⟩
        rw [runSched, List.getElem?_eq_getElem htl]
        dsimp only
        rw [g1, ok_bind]
        exact e1
      · exact absurd g3 hnt
      · exact absurd g3 hnb

end Verif.P2P
