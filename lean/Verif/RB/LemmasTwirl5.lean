import Verif.RB.LemmasTwirl4
set_option linter.unusedSimpArgs false
set_option linter.unusedVariables false
set_option linter.unusedSectionVars false
/-
RB sequences as products of operations on the density matrix.
-/
namespace Verif.RB
open Verif.Quantum Matrix

variable {E : Type} {G : Group E} {Mem : ℕ → E → Prop} {N : ℕ} {pat : List ℕ}

/-! ### The operation of an element -/

/-- Conjugation by the circuit of an element. -/
noncomputable def uOf (G : Group E) (n : ℕ) (e : E) : (Sup n)ˣ :=
  open Classical in if h : ∀ i ∈ (G.toCircuit e).getD [], Ok n i then adU h else 1

theorem uOf_eq {n : ℕ} {e : E} {c : List Ins} (h : G.toCircuit e = some c) (hc : ∀ i ∈ c, Ok n i) : uOf G n e = adU hc := by
  unfold uOf
  have : (G.toCircuit e).getD [] = c := by rw [h]; rfl
  rw [dif_pos (by rw [this]; exact hc)]
  congr 1

theorem ok_append {n : ℕ} {c d : List Ins} (hc : ∀ i ∈ c, Ok n i) (hd : ∀ i ∈ d, Ok n i) : ∀ i ∈ c ++ d, Ok n i := fun i hi =>
  (List.mem_append.1 hi).elim (hc i) (hd i)

theorem Lawful.ok (hL : Lawful G Mem) {n : ℕ} {e : E} (he : Mem n e) : ∃ c, G.toCircuit e = some c ∧ ∀ i ∈ c, Ok n i := by
  obtain ⟨c, h1, h2⟩ := hL.toCircuit n e he
  exact ⟨c, h1, fun i hi => (h2 i hi).1⟩

theorem u_prod (hL : Lawful G Mem) {n : ℕ} {gs : List E} (hg : ∀ g ∈ gs, Mem n g) {e0 : E} (h0 : Mem n e0) :
    ∃ e, prodFrom G e0 gs = some e ∧ Mem n e ∧ uOf G n e = prodU (gs.map (uOf G n)) * uOf G n e0 := by
  induction gs generalizing e0 with
  | nil => exact ⟨e0, rfl, h0, by simp [prodU]⟩
  | cons g gs ih =>
    obtain ⟨e1, h1, h2, h3⟩ := hL.compose n e0 g h0 (hg g (by simp))
    obtain ⟨c0, a1, a2⟩ := hL.ok h0
    obtain ⟨cg, b1, b2⟩ := hL.ok (hg g (by simp))
    obtain ⟨c1, d1, d2⟩ := hL.ok h2
    have hu : uOf G n e1 = uOf G n g * uOf G n e0 := by
      rw [uOf_eq a1 a2, uOf_eq b1 b2, uOf_eq d1 d2, ← adU_append a2 b2 (ok_append a2 b2)]
      exact adU_same d2 _ (h3 c0 cg c1 a1 b1 d1)
    obtain ⟨e, e1', e2, e3⟩ := ih (fun g hg' => hg g (by simp [hg'])) h2
    refine ⟨e, ?_, e2, ?_⟩
    · unfold prodFrom
      rw [List.foldlM_cons, h1]
      exact e1'
    · rw [e3, hu, List.map_cons, prodU, mul_assoc]

/-- The circuits of a sequence exist; the circuit of the inverse undoes the product. -/
theorem seqOn_spec (hL : Lawful G Mem) (ht : Tgt N pat) (hpos : ∃ e, Mem pat.length e) {gs : List E} (hg : ∀ g ∈ gs, Mem pat.length g) :
    ∃ blocks inv cinv, seqOn G pat gs = some (blocks, inv) ∧ gs.mapM (embed G pat) = some blocks ∧ (∀ i ∈ cinv, Ok pat.length i) ∧ replaceQ cinv pat = some inv ∧
      Ad (opMat pat.length cinv) = (((prodU (gs.map (uOf G pat.length)))⁻¹ : (Sup pat.length)ˣ) : Sup pat.length) := by
  obtain ⟨e0, i1, i2, c0, i3, i4⟩ := hL.iden _ hpos
  obtain ⟨e, p1, p2, p3⟩ := u_prod hL hg i2
  obtain ⟨c0', a1, a2⟩ := hL.ok i2
  rw [i3] at a1; cases a1
  have hu0 : uOf G pat.length e0 = 1 := by
    rw [uOf_eq i3 a2, adU_same a2 (by simp) i4]
    ext1
    show Ad (opMat _ []) = 1
    rw [opMat_nil, Ad_one]
  rw [hu0, mul_one] at p3
  obtain ⟨c, b1, b2⟩ := hL.ok p2
  obtain ⟨inv, v1, v2, v3, v4⟩ := invCirc_spec b2
  obtain ⟨inv', r1, -⟩ := replaceQ_spec ht v2
  have hm : ∀ gs : List E, (∀ g ∈ gs, Mem pat.length g) → ∃ blocks, gs.mapM (embed G pat) = some blocks := by
    intro gs hg
    induction gs with
    | nil => exact ⟨[], rfl⟩
    | cons g gs ih =>
      obtain ⟨bs, hbs⟩ := ih fun g hg' => hg g (by simp [hg'])
      obtain ⟨cg, dg, -, g2, -⟩ := embed_spec (N := N) hL ht (hg g (by simp))
      exact ⟨dg :: bs, by rw [List.mapM_cons, g2, hbs]; rfl⟩
  obtain ⟨blocks, hb⟩ := hm gs hg
  refine ⟨blocks, inv', inv, ?_, hb, v2, r1, ?_⟩
  · have hi : G.inverse e = some inv := by unfold Group.inverse; rw [b1]; exact v1
    unfold seqOn
    simp only [Option.bind_eq_bind, i1, Option.bind_some, p1, hb, hi, r1]
    rfl
  · rw [← p3, uOf_eq b1 b2]
    have h1 : Ad (opMat pat.length inv) * Ad (opMat pat.length c) = 1 := by
      rw [← Ad_mul, ← opMat_append b2 v2]
      have : opMat pat.length (c ++ inv) = opMat pat.length [] := by
        ext y x
        simp only [opMat, v4]
        rfl
      rw [this, opMat_nil, Ad_one]
    calc Ad (opMat pat.length inv) = Ad (opMat pat.length inv) * ((adU b2 : (Sup pat.length)ˣ) : Sup pat.length) * (((adU b2)⁻¹ : (Sup pat.length)ˣ) : Sup pat.length) := by
          rw [mul_assoc, Units.mul_inv, mul_one]
      _ = _ := by
          rw [show ((adU b2 : (Sup pat.length)ˣ) : Sup pat.length) = Ad (opMat pat.length c) from rfl, h1, one_mul]

theorem noisyK_append (l l' : List (KEvent N)) (e : Ens N) : noisyK (l ++ l') e = noisyK l' (noisyK l e) := by
  induction l generalizing e with
  | nil => rfl
  | cons ev l ih => rw [List.cons_append, noisyK, noisyK, ih]

theorem embed_circuit {g : E} {d : List Ins} (h : embed G pat g = some d) {c : List Ins} (hc : G.toCircuit g = some c) : replaceQ c pat = some d := by
  unfold embed at h
  rw [hc] at h
  exact h

/-- The density matrix after the circuits of a sequence. -/
theorem seq_red (hL : Lawful G Mem) (ht : Tgt N pat) (Ks : List (Op pat.length)) {gs : List E} (hg : ∀ g ∈ gs, Mem pat.length g) {blocks : List (List Ins)}
    (hb : gs.mapM (embed G pat) = some blocks) (e : Ens N) :
    redE ht (noisyK (blocks.map fun b => (pat, b, Ks.map (applyOn N pat))) e) = seqOp (chan Ks) (gs.map (uOf G pat.length)) (redE ht e) := by
  induction gs generalizing blocks e with
  | nil => cases hb; rfl
  | cons g gs ih =>
    obtain ⟨c, c1, c2⟩ := hL.ok (hg g (by simp))
    rw [List.mapM_cons] at hb
    cases hx : embed G pat g with
    | none => rw [hx] at hb; cases hb
    | some d =>
      cases hm : gs.mapM (embed G pat) with
      | none => rw [hx, hm] at hb; cases hb
      | some bs =>
        rw [hx, hm] at hb; cases hb
        rw [List.map_cons, noisyK, ih (fun g hg' => hg g (by simp [hg'])) hm, List.map_cons, seqOp, Module.End.mul_apply, Module.End.mul_apply]
        dsimp only
        rw [redE_block ht c2 (embed_circuit hx c1), uOf_eq c1 c2]
        rfl

/-- Further circuits and noise are one linear operation. -/
theorem lin_events (ht : Tgt N pat) {l : List (List Ins × List (Op pat.length))} (hl : ∀ cK ∈ l, OnSub pat cK.1) :
    ∃ T : Sup pat.length, ∀ e : Ens N, redE ht (noisyK (l.map fun cK => (pat, cK.1, cK.2.map (applyOn N pat))) e) = T (redE ht e) := by
  induction l with
  | nil => exact ⟨1, fun e => rfl⟩
  | cons cK l ih =>
    obtain ⟨T, hT⟩ := ih fun x hx => hl x (by simp [hx])
    obtain ⟨c, c1, c2⟩ := hl cK (by simp)
    refine ⟨T * (chan cK.2 * Ad (opMat pat.length c)), fun e => ?_⟩
    rw [List.map_cons, noisyK, hT, redE_block ht c1 c2]
    rfl

/-- The success probability of a sequence. -/
theorem success_eq (hL : Lawful G Mem) (ht : Tgt N pat) (hpos : ∃ e, Mem pat.length e) (Ks Js : List (Op pat.length))
    {pre post : List (List Ins × List (Op pat.length))} (e : Ens N) {S : Sup pat.length}
    (hS : ∀ e : Ens N, redE ht (noisyK (post.map fun cK => (pat, cK.1, cK.2.map (applyOn N pat))) e) = S (redE ht e)) {gs : List E}
    (hg : ∀ g ∈ gs, Mem pat.length g) :
    ((success G pat pre Ks Js post e gs : ℝ) : ℂ) = S (chan Js (((((prodU (gs.map (uOf G pat.length)))⁻¹ : (Sup pat.length)ˣ) : Sup pat.length) *
      seqOp (chan Ks) (gs.map (uOf G pat.length))) (redE ht (noisyK (pre.map fun cK => (pat, cK.1, cK.2.map (applyOn N pat))) e)))) (fun _ => false) fun _ => false := by
  obtain ⟨blocks, inv, cinv, h1, h2, h3, h4, h5⟩ := seqOn_spec hL ht hpos hg
  unfold success
  rw [h1]
  show ((survival pat (pre ++ blocks.map (fun b => (b, Ks)) ++ (inv, Js) :: post) e : ℝ) : ℂ) = _
  unfold survival
  rw [outcome_red ht, List.map_append, List.map_append, List.map_map, noisyK_append, noisyK_append, List.map_cons, noisyK, hS]
  show S (redE ht (branch (Js.map (applyOn N pat)) (List.map _ (noisyK (List.map (fun b => (pat, b, Ks.map (applyOn N pat))) blocks) _)))) _ _ = _
  rw [redE_block ht h3 h4, seq_red hL ht Ks hg h2, h5]
  rfl

/-- The functional that reads the success probability off a mean operation. -/
def readOff {n : ℕ} (S : Sup n) (ρ : Op n) : Sup n →ₗ[ℂ] ℂ where
  toFun T := S (T ρ) (fun _ => false) fun _ => false
  map_add' T T' := by rw [LinearMap.add_apply, map_add, Matrix.add_apply]
  map_smul' z T := by rw [LinearMap.smul_apply, map_smul, Matrix.smul_apply]; rfl

/-- The mean success probability over all sequences of `m` elements. -/
theorem expect_success (hL : Lawful G Mem) (ht : Tgt N pat) (hpos : ∃ e, Mem pat.length e) {els : Finset E} (hm : ∀ e ∈ els, Mem pat.length e)
    (hcl : Closed els (uOf G pat.length)) (Ks Js : List (Op pat.length)) {pre post : List (List Ins × List (Op pat.length))}
    {S : Sup pat.length} (hS : ∀ e : Ens N, redE ht (noisyK (post.map fun cK => (pat, cK.1, cK.2.map (applyOn N pat))) e) = S (redE ht e)) (e : Ens N) (m : ℕ) :
    ((expect els m (success G pat pre Ks Js post e) : ℝ) : ℂ) =
      (S * chan Js) ((tw els (uOf G pat.length) (chan Ks) ^ m) (redE ht (noisyK (pre.map fun cK => (pat, cK.1, cK.2.map (applyOn N pat))) e))) (fun _ => false) fun _ => false := by
  rw [expect_ex, ex_congr els m fun l _ hl => success_eq hL ht hpos Ks Js e hS fun g hg => hm g (hl g hg), ← ex_seq hcl]
  exact (ex_map els m (readOff (S * chan Js) _) _).symm

theorem mapM_pairs {g : E} {d : List Ins} (hd : embed G pat g = some d) (gs : List E) {blocks : List (List Ins)}
    (h : (gs.flatMap fun g' => [g', g]).mapM (embed G pat) = some blocks) : ∃ bs, gs.mapM (embed G pat) = some bs ∧ blocks = bs.flatMap fun b => [b, d] := by
  induction gs generalizing blocks with
  | nil => cases h; exact ⟨[], rfl, rfl⟩
  | cons g' gs ih =>
    rw [List.flatMap_cons, List.cons_append, List.cons_append, List.nil_append, List.mapM_cons, List.mapM_cons, hd] at h
    cases hx : embed G pat g' with
    | none => rw [hx] at h; cases h
    | some b =>
      cases hm : (gs.flatMap fun g' => [g', g]).mapM (embed G pat) with
      | none => rw [hx, hm] at h; cases h
      | some bl =>
        rw [hx, hm] at h
        obtain ⟨bs, b1, b2⟩ := ih hm
        refine ⟨b :: bs, by rw [List.mapM_cons, hx, b1]; rfl, ?_⟩
        rw [List.flatMap_cons, ← b2]
        cases h; rfl

theorem alternate_pairs {n : ℕ} (Ks Rs : List (Op n)) (bs : List (List Ins)) (d : List Ins) :
    alternate Ks Rs (bs.flatMap fun b => [b, d]) = bs.flatMap fun b => [(b, Ks), (d, Rs)] := by
  induction bs with
  | nil => rfl
  | cons b bs ih => simp only [List.flatMap_cons, List.cons_append, List.nil_append, alternate, ih]

theorem seq_red_inter (hL : Lawful G Mem) (ht : Tgt N pat) (Ks Rs : List (Op pat.length)) {g : E} (hgm : Mem pat.length g) {d : List Ins}
    (hd : embed G pat g = some d) {gs : List E} (hg : ∀ g ∈ gs, Mem pat.length g) {bs : List (List Ins)} (hb : gs.mapM (embed G pat) = some bs) (e : Ens N) :
    redE ht (noisyK ((bs.flatMap fun b => [(b, Ks), (d, Rs)]).map fun cK => (pat, cK.1, cK.2.map (applyOn N pat))) e) =
      seqOp (chan Rs * (uOf G pat.length g : Sup pat.length) * chan Ks * (((uOf G pat.length g)⁻¹ : (Sup pat.length)ˣ) : Sup pat.length))
        (gs.map fun g' => uOf G pat.length g * uOf G pat.length g') (redE ht e) := by
  induction gs generalizing bs e with
  | nil => cases hb; rfl
  | cons g' gs ih =>
    obtain ⟨c, c1, c2⟩ := hL.ok (hg g' (by simp))
    obtain ⟨cg, k1, k2⟩ := hL.ok hgm
    rw [List.mapM_cons] at hb
    cases hx : embed G pat g' with
    | none => rw [hx] at hb; cases hb
    | some b =>
      cases hm : gs.mapM (embed G pat) with
      | none => rw [hx, hm] at hb; cases hb
      | some bl =>
        rw [hx, hm] at hb; cases hb
        rw [List.flatMap_cons, List.cons_append, List.cons_append, List.nil_append, List.map_cons, List.map_cons, noisyK, noisyK,
          ih (fun g hg' => hg g (by simp [hg'])) hm, List.map_cons, seqOp, Module.End.mul_apply]
        congr 1
        dsimp only
        rw [redE_block ht k2 (embed_circuit hd k1), redE_block ht c2 (embed_circuit hx c1), Units.val_mul, mul_assoc _ _ ((uOf G pat.length g : Sup pat.length) * _),
          ← mul_assoc (((uOf G pat.length g)⁻¹ : (Sup pat.length)ˣ) : Sup pat.length), Units.inv_mul, one_mul, uOf_eq c1 c2, uOf_eq k1 k2]
        rfl

theorem prodU_pairs (u v : (Sup N)ˣ) (l : List (Sup N)ˣ) : prodU (l.flatMap fun x => [x, v]) = prodU (l.map fun x => v * x) := by
  induction l with
  | nil => rfl
  | cons x l ih => rw [List.flatMap_cons, List.cons_append, List.cons_append, List.nil_append, prodU, prodU, ih, List.map_cons, prodU, mul_assoc]

/-- The success probability of an interleaved sequence. -/
theorem successI_eq (hL : Lawful G Mem) (ht : Tgt N pat) (hpos : ∃ e, Mem pat.length e) (Ks Rs Js : List (Op pat.length)) {g : E} (hgm : Mem pat.length g)
    {pre post : List (List Ins × List (Op pat.length))} (e : Ens N) {S : Sup pat.length}
    (hS : ∀ e : Ens N, redE ht (noisyK (post.map fun cK => (pat, cK.1, cK.2.map (applyOn N pat))) e) = S (redE ht e)) {gs : List E}
    (hg : ∀ g ∈ gs, Mem pat.length g) :
    ((successI G pat g pre Ks Rs Js post e gs : ℝ) : ℂ) = S (chan Js (((((prodU (gs.map fun g' => uOf G pat.length g * uOf G pat.length g'))⁻¹ : (Sup pat.length)ˣ) : Sup pat.length) *
      seqOp (chan Rs * (uOf G pat.length g : Sup pat.length) * chan Ks * (((uOf G pat.length g)⁻¹ : (Sup pat.length)ˣ) : Sup pat.length))
        (gs.map fun g' => uOf G pat.length g * uOf G pat.length g'))
      (redE ht (noisyK (pre.map fun cK => (pat, cK.1, cK.2.map (applyOn N pat))) e)))) (fun _ => false) fun _ => false := by
  have hg' : ∀ x ∈ gs.flatMap (fun g' => [g', g]), Mem pat.length x := by
    intro x hx
    obtain ⟨y, h1, h2⟩ := List.mem_flatMap.1 hx
    simp at h2
    rcases h2 with rfl | rfl
    · exact hg _ h1
    · exact hgm
  obtain ⟨blocks, inv, cinv, h1, h2, h3, h4, h5⟩ := seqOn_spec hL ht hpos hg'
  obtain ⟨-, d, -, hd, -⟩ := embed_spec (N := N) hL ht hgm
  obtain ⟨bs, b1, rfl⟩ := mapM_pairs hd gs h2
  unfold successI
  rw [h1]
  show ((survival pat (pre ++ alternate Ks Rs (bs.flatMap fun b => [b, d]) ++ (inv, Js) :: post) e : ℝ) : ℂ) = _
  unfold survival
  rw [alternate_pairs, outcome_red ht, List.map_append, List.map_append, noisyK_append, noisyK_append, List.map_cons, noisyK, hS]
  dsimp only
  rw [redE_block ht h3 h4, seq_red_inter hL ht Ks Rs hgm hd hg b1, h5]
  have e1 : ((gs.flatMap fun g' => [g', g]).map (uOf G pat.length)) = (gs.map (uOf G pat.length)).flatMap fun x => [x, uOf G pat.length g] := by
    rw [List.map_flatMap, List.flatMap_map]; rfl
  rw [e1, prodU_pairs 1, List.map_map]
  rfl

/-- The mean success probability of interleaved sequences. -/
theorem expect_successI (hL : Lawful G Mem) (ht : Tgt N pat) (hpos : ∃ e, Mem pat.length e) {els : Finset E} (hm : ∀ e ∈ els, Mem pat.length e)
    (hcl : Closed els (uOf G pat.length)) (Ks Rs Js : List (Op pat.length)) {g : E} (hge : g ∈ els) {pre post : List (List Ins × List (Op pat.length))}
    {S : Sup pat.length} (hS : ∀ e : Ens N, redE ht (noisyK (post.map fun cK => (pat, cK.1, cK.2.map (applyOn N pat))) e) = S (redE ht e)) (e : Ens N) (m : ℕ) :
    ((expect els m (successI G pat g pre Ks Rs Js post e) : ℝ) : ℂ) =
      (S * chan Js) ((tw els (uOf G pat.length) (chan Rs * (uOf G pat.length g : Sup pat.length) * chan Ks * (((uOf G pat.length g)⁻¹ : (Sup pat.length)ˣ) : Sup pat.length)) ^ m)
        (redE ht (noisyK (pre.map fun cK => (pat, cK.1, cK.2.map (applyOn N pat))) e))) (fun _ => false) fun _ => false := by
  rw [expect_ex, ex_congr els m fun l _ hl => successI_eq hL ht hpos Ks Rs Js (hm g hge) e hS fun g hg => hm g (hl g hg), ← ex_seq hcl]
  set Λ := chan Rs * (uOf G pat.length g : Sup pat.length) * chan Ks * (((uOf G pat.length g)⁻¹ : (Sup pat.length)ˣ) : Sup pat.length)
  have h1 := ex_inter hcl hge (fun l => (((prodU l)⁻¹ : (Sup pat.length)ˣ) : Sup pat.length) * seqOp Λ l) m
  rw [← h1]
  exact (ex_map els m (readOff (S * chan Js) _) _).symm

theorem Ad_chan {n : ℕ} (U V : Op n) (Ks : List (Op n)) : Ad U * chan Ks * Ad V = chan (Ks.map fun K => U * K * V) := by
  unfold chan
  induction Ks with
  | nil => simp
  | cons K Ks ih => rw [List.map_cons, List.sum_cons, List.map_cons, List.map_cons, List.sum_cons, mul_add, add_mul, ih, Ad_mul, Ad_mul]

theorem chan_mul {n : ℕ} (Rs Ks : List (Op n)) : chan Rs * chan Ks = chan (Rs.flatMap fun R => Ks.map fun K => R * K) := by
  have h1 : ∀ R : Op n, Ad R * chan Ks = chan (Ks.map fun K => R * K) := fun R => by
    have := Ad_chan R 1 Ks
    simpa [Ad_one] using this
  unfold chan at *
  induction Rs with
  | nil => simp
  | cons R Rs ih => rw [List.map_cons, List.sum_cons, List.flatMap_cons, List.map_append, List.sum_append, add_mul, ih, h1]

theorem chan_composite {n : ℕ} {c : List Ins} (hc : ∀ i ∈ c, Ok n i) (Ks Rs : List (Op n)) :
    chan Rs * (adU hc : Sup n) * chan Ks * (((adU hc)⁻¹ : (Sup n)ˣ) : Sup n) = chan (composite (opMat n c) Ks Rs) := by
  rw [mul_assoc, mul_assoc, ← mul_assoc (adU hc : Sup n)]
  show chan Rs * (Ad (opMat n c) * chan Ks * Ad (opMat n c)ᴴ) = _
  rw [Ad_chan, chan_mul]
  unfold composite
  simp only [List.map_map, Function.comp_def]

theorem channel_conj {n : ℕ} {U : Op n} (hU : Uᴴ * U = 1) (hU' : U * Uᴴ = 1) {Ks : List (Op n)} (h : IsChannel Ks) : IsChannel (Ks.map fun K => U * K * Uᴴ) := by
  unfold IsChannel at *
  have e1 : ∀ K : Op n, (U * K * Uᴴ)ᴴ * (U * K * Uᴴ) = U * (Kᴴ * K) * Uᴴ := by
    intro K
    rw [conjTranspose_mul, conjTranspose_mul, conjTranspose_conjTranspose]
    calc U * (Kᴴ * Uᴴ) * (U * K * Uᴴ) = U * Kᴴ * (Uᴴ * U) * K * Uᴴ := by simp only [Matrix.mul_assoc]
      _ = _ := by rw [hU, Matrix.mul_one]; simp only [Matrix.mul_assoc]
  have e2 : ∀ l : List (Op n), (l.map fun K => U * K * Uᴴ).sum = U * l.sum * Uᴴ := by
    intro l
    induction l with
    | nil => simp
    | cons K l ih => rw [List.map_cons, List.sum_cons, List.sum_cons, ih, Matrix.mul_add, Matrix.add_mul]
  rw [List.map_map]
  have e3 : Ks.map ((fun K => Kᴴ * K) ∘ fun K => U * K * Uᴴ) = (Ks.map fun K => Kᴴ * K).map fun K => U * K * Uᴴ := by
    rw [List.map_map]
    exact List.map_congr_left fun K _ => e1 K
  rw [e3, e2, h, Matrix.mul_one, hU']

theorem channel_mul {n : ℕ} {Ks Rs : List (Op n)} (h : IsChannel Ks) (h' : IsChannel Rs) : IsChannel (Rs.flatMap fun R => Ks.map fun K => R * K) := by
  unfold IsChannel at *
  have e2 : ∀ (Ks : List (Op n)) (M : Op n), (Ks.map fun K => Kᴴ * M * K).sum = (Ks.map fun K => Kᴴ * M * K).sum := fun _ _ => rfl
  have e1 : ((Rs.flatMap fun R => Ks.map fun K => R * K).map fun K => Kᴴ * K).sum = (Ks.map fun K => Kᴴ * (Rs.map fun R => Rᴴ * R).sum * K).sum := by
    clear h h'
    induction Rs with
    | nil => simp
    | cons R Rs ih =>
      rw [List.flatMap_cons, List.map_append, List.sum_append, ih, List.map_cons, List.sum_cons, List.map_map]
      rw [show (Ks.map fun K => Kᴴ * (Rᴴ * R + (Rs.map fun R => Rᴴ * R).sum) * K) = Ks.map fun K => Kᴴ * (Rᴴ * R) * K + Kᴴ * (Rs.map fun R => Rᴴ * R).sum * K from
        List.map_congr_left fun K _ => by rw [Matrix.mul_add, Matrix.add_mul]]
      rw [List.sum_map_add]
      congr 2
      refine List.map_congr_left fun K _ => ?_
      simp only [Function.comp, conjTranspose_mul, Matrix.mul_assoc]
  rw [e1, h']
  simp only [Matrix.mul_one]
  exact h

theorem channel_composite {n : ℕ} {U : Op n} (hU : Uᴴ * U = 1) (hU' : U * Uᴴ = 1) {Ks Rs : List (Op n)} (h : IsChannel Ks) (h' : IsChannel Rs) :
    IsChannel (composite U Ks Rs) := by
  have := channel_mul (channel_conj hU hU' h) h'
  unfold composite
  simpa only [List.map_map, Function.comp_def] using this

/-! ### Traces -/

theorem trace_Ad_sum {n : ℕ} {Ks : List (Op n)} (h : IsChannel Ks) (ρ : Op n) : (chan Ks ρ).trace = ρ.trace := by
  unfold chan
  rw [list_sum_apply, List.map_map]
  have e1 : ∀ l : List (Op n), (l.map fun K => K * ρ * Kᴴ).sum.trace = ((l.map fun K => Kᴴ * K).sum * ρ).trace := by
    intro l
    induction l with
    | nil => simp
    | cons K l ih =>
      rw [List.map_cons, List.sum_cons, Matrix.trace_add, ih, List.map_cons, List.sum_cons, Matrix.add_mul, Matrix.trace_add]
      congr 1
      rw [Matrix.trace_mul_comm, ← Matrix.mul_assoc]
  refine Eq.trans (e1 Ks) ?_
  rw [h, Matrix.one_mul]

theorem trace_Ad {n : ℕ} {U : Op n} (h : Uᴴ * U = 1) (ρ : Op n) : (Ad U ρ).trace = ρ.trace := by
  rw [Ad_apply, Matrix.trace_mul_comm, ← Matrix.mul_assoc, h, Matrix.one_mul]

theorem trace_tw {n : ℕ} {els : Finset E} (hne : els.Nonempty) {u : E → (Sup n)ˣ}
    (hu : ∀ e ∈ els, (∀ ρ : Op n, ((u e : Sup n) ρ).trace = ρ.trace)) {Λ : Sup n} (hΛ : ∀ ρ, (Λ ρ).trace = ρ.trace) (ρ : Op n) :
    (tw els u Λ ρ).trace = ρ.trace := by
  unfold tw
  rw [LinearMap.smul_apply, LinearMap.sum_apply, Matrix.trace_smul, Matrix.trace_sum]
  have : ∀ e ∈ els, (((((u e)⁻¹ : (Sup n)ˣ) : Sup n) * Λ * (u e : Sup n)) ρ).trace = ρ.trace := by
    intro e he
    have hinv : ∀ σ : Op n, ((((u e)⁻¹ : (Sup n)ˣ) : Sup n) σ).trace = σ.trace := by
      intro σ
      rw [← hu e he, ← Module.End.mul_apply, Units.mul_inv]; rfl
    rw [Module.End.mul_apply, Module.End.mul_apply, hinv, hΛ, hu e he]
  rw [Finset.sum_congr rfl this, Finset.sum_const, nsmul_eq_mul, smul_eq_mul, ← mul_assoc, inv_mul_cancel₀, one_mul]
  exact_mod_cast hne.card_pos.ne'

theorem strace_tw {n : ℕ} {els : Finset E} (hne : els.Nonempty) (u : E → (Sup n)ˣ) (Λ : Sup n) (S : Sup n) (hS : ∀ e ∈ els, S * (u e : Sup n) = (u e : Sup n) * S) :
    LinearMap.trace ℂ (Op n) (S * tw els u Λ) = LinearMap.trace ℂ (Op n) (S * Λ) := by
  unfold tw
  rw [mul_smul_comm, map_smul, Finset.mul_sum, map_sum]
  have : ∀ e ∈ els, LinearMap.trace ℂ (Op n) (S * ((((u e)⁻¹ : (Sup n)ˣ) : Sup n) * Λ * (u e : Sup n))) = LinearMap.trace ℂ (Op n) (S * Λ) := by
    intro e he
    rw [← mul_assoc, LinearMap.trace_mul_comm, ← mul_assoc, ← mul_assoc, ← hS e he, mul_assoc S, Units.mul_inv, mul_one]
  rw [Finset.sum_congr rfl this, Finset.sum_const, nsmul_eq_mul, smul_eq_mul, ← mul_assoc, inv_mul_cancel₀, one_mul]
  exact_mod_cast hne.card_pos.ne'

theorem strace_chan {n : ℕ} (Ks : List (Op n)) : LinearMap.trace ℂ (Op n) (chan Ks) = ((processFidelity Ks * (2 ^ n) ^ 2 : ℝ) : ℂ) := by
  unfold processFidelity chan
  rw [div_mul_cancel₀ _ (by positivity)]
  induction Ks with
  | nil => simp
  | cons K Ks ih => rw [List.map_cons, List.sum_cons, map_add, ih, strace_Ad, List.map_cons, List.sum_cons]; push_cast; rfl

/-! ### Powers -/

theorem Dep_Dep {n : ℕ} : Dep n * Dep n = Dep n := ext_pauli fun a b => by
  rw [Module.End.mul_apply, Dep_P]
  split_ifs with h
  · rw [Dep_P, if_pos h]
  · rw [map_zero]

theorem Dg_Dg {n : ℕ} : Dg n * Dg n = Dg n := ext_pauli fun a b => by
  rw [Module.End.mul_apply, Dg_P]
  split_ifs with h
  · rw [Dg_P, if_pos h]
  · rw [map_zero]

theorem Dg_Dep {n : ℕ} : Dg n * Dep n = Dep n := ext_pauli fun a b => by
  rw [Module.End.mul_apply, Dep_P]
  split_ifs with h
  · rw [Dg_P, if_pos h.2]
  · rw [map_zero]

theorem Dep_Dg {n : ℕ} : Dep n * Dg n = Dep n := ext_pauli fun a b => by
  rw [Module.End.mul_apply, Dg_P, Dep_P]
  split_ifs with h h' h'
  · rw [Dep_P, if_pos h']
  · rw [Dep_P, if_neg h']
  · exact absurd h'.2 h
  · rw [map_zero]

theorem pow_form {n : ℕ} (z r : ℂ) (m : ℕ) : (r • (1 : Sup n) + (z - r) • Dg n + (1 - z) • Dep n) ^ m = r ^ m • 1 + (z ^ m - r ^ m) • Dg n + (1 - z ^ m) • Dep n := by
  induction m with
  | zero => simp
  | succ m ih =>
    rw [pow_succ, ih]
    simp only [mul_add, add_mul, smul_mul_smul_comm, one_mul, mul_one, Dep_Dep, Dg_Dg, Dg_Dep, Dep_Dg]
    module

end Verif.RB
