import Verif.RepCode.Lemmas9
import Verif.RepCode.SpecNoise
set_option linter.unusedVariables false
/-
Several faults: their flips add up.
-/
namespace Verif.RepCode
open Verif

/-- Sum of flip patterns. -/
def xs (l : List (Cl → Bool)) : Cl → Bool := fun c => (l.map fun f => f c).foldr Bool.xor false

@[simp] theorem xs_nil : xs [] = zpat := rfl
theorem xs_cons (f : Cl → Bool) (l : List (Cl → Bool)) : xs (f :: l) = fun c => (f c).xor (xs l c) := rfl

theorem xs_append (l l' : List (Cl → Bool)) : xs (l ++ l') = fun c => (xs l c).xor (xs l' c) := by
  induction l with
  | nil => funext c; simp [zpat]
  | cons f l ih => funext c; rw [List.cons_append, xs_cons, xs_cons, ih]; simp

theorem xs_map_xor {α : Type} (l : List α) (g h : α → Cl → Bool) :
    xs (l.map fun a c => (g a c).xor (h a c)) = fun c => (xs (l.map g) c).xor (xs (l.map h) c) := by
  induction l with
  | nil => funext c; simp [zpat]
  | cons a l ih =>
    funext c
    simp only [List.map_cons, xs_cons, ih]
    cases g a c <;> cases h a c <;> simp

theorem xs_filter {α : Type} (l : List α) (p : α → Bool) (g : α → Cl → Bool) :
    xs ((l.filter p).map g) = xs (l.map fun a => if p a then g a else zpat) := by
  induction l with
  | nil => rfl
  | cons a l ih =>
    rw [List.filter_cons]
    by_cases h : p a = true
    · simp only [h, if_true, List.map_cons, xs_cons, ih]
    · rw [if_neg h, List.map_cons, if_neg h, xs_cons, ih]
      funext c
      simp [zpat]

/-- X gates on a list of qubits. -/
theorem run_xs (qs : List Qb) (l : List Op) (s : Sim) :
    (run l (run (qs.map Op.x) s)).m = fun c => ((run l s).m c).xor (xs (qs.map fun q => flip l q) c) := by
  induction qs generalizing s with
  | nil => funext c; simp [run, zpat]
  | cons q qs ih =>
    rw [List.map_cons, run_cons, ih]
    have : (run l (step s (.x q))).m = fun c => ((run l s).m c).xor (flip l q c) := by
      have := run_inject [] l q s
      simpa [run_cons] using this
    funext c
    rw [this, List.map_cons, xs_cons]
    simp

/-- The flips caused by one fault. -/
def contrib (ops : List Op) (k : Nat) (f : Fault) : Cl → Bool :=
  if f.2.2 ≠ .z ∧ k ≤ f.1 ∧ f.1 < k + ops.length then flip (ops.drop (f.1 - k)) f.2.1 else zpat

theorem noisy_run (F : List Fault) (ops : List Op) (k : Nat) (s : Sim) :
    (run ((ops.zipIdx k).flatMap fun oi => ((F.filter fun f => f.1 = oi.2 ∧ f.2.2 ≠ .z).map fun f => Op.x f.2.1) ++ [oi.1]) s).m =
      fun c => ((run ops s).m c).xor (xs (F.map (contrib ops k)) c) := by
  induction ops generalizing k s with
  | nil =>
    have : F.map (contrib [] k) = F.map fun _ => zpat := by
      apply List.map_congr_left
      intro f _
      unfold contrib
      rw [if_neg]
      rintro ⟨-, h1, h2⟩
      simp at h2
      omega
    funext c
    rw [this]
    have h : ∀ F : List Fault, xs (F.map fun _ => zpat) c = false := by
      intro F
      induction F with
      | nil => rfl
      | cons f F ih =>
        rw [List.map_cons, xs_cons]
        change (zpat c).xor (xs (F.map fun _ => zpat) c) = false
        rw [ih]
        rfl
    change s.m c = (s.m c).xor _
    rw [h]
    simp
  | cons o ops ih =>
    rw [List.zipIdx_cons, List.flatMap_cons]
    simp only [List.append_assoc, List.singleton_append]
    rw [run_append, run_cons, ih]
    have h1 : ∀ s, run ops (step s o) = run (o :: ops) s := fun _ => rfl
    have h2 : ((F.filter fun f => f.1 = k ∧ f.2.2 ≠ .z).map fun f => Op.x f.2.1) =
        ((F.filter fun f => f.1 = k ∧ f.2.2 ≠ .z).map fun f => f.2.1).map Op.x := by rw [List.map_map]; rfl
    rw [h1, h2, run_xs, List.map_map]
    funext c
    rw [Bool.xor_assoc]
    congr 1
    have h3 := xs_filter F (fun f => decide (f.1 = k ∧ f.2.2 ≠ .z)) (fun f => flip (o :: ops) f.2.1)
    have h4 : xs (List.map ((fun q => flip (o :: ops) q) ∘ fun f : Fault => f.2.1)
        (F.filter fun f => decide (f.1 = k ∧ f.2.2 ≠ .z))) =
        xs (F.map fun a => if decide (a.1 = k ∧ a.2.2 ≠ .z) then flip (o :: ops) a.2.1 else zpat) := h3
    rw [h4]
    have h5 := xs_map_xor F (fun a => if decide (a.1 = k ∧ a.2.2 ≠ .z) then flip (o :: ops) a.2.1 else zpat) (contrib ops (k + 1))
    have h6 := congrFun h5 c
    beta_reduce at h6
    rw [← h6]
    congr 2
    funext f c
    by_cases hz : f.2.2 = .z
    · simp [contrib, hz, zpat]
    · by_cases hk : f.1 = k
      · have : ¬ k + 1 ≤ f.1 := by omega
        simp [contrib, hz, hk, zpat]
      · rw [if_neg (by simp [hk])]
        by_cases hk2 : k + 1 ≤ f.1 ∧ f.1 < k + 1 + ops.length
        · have e1 : k ≤ f.1 ∧ f.1 < k + (o :: ops).length := by simp; omega
          have e2 : f.1 - k = (f.1 - (k + 1)) + 1 := by omega
          have c1 : contrib ops (k + 1) f = flip (ops.drop (f.1 - (k + 1))) f.2.1 := if_pos ⟨hz, hk2⟩
          have c2 : contrib (o :: ops) k f = flip ((o :: ops).drop (f.1 - k)) f.2.1 := if_pos ⟨hz, e1⟩
          rw [c1, c2, e2]
          simp [zpat]
        · have e1 : ¬ (k ≤ f.1 ∧ f.1 < k + (o :: ops).length) := by simp; omega
          have c1 : contrib ops (k + 1) f = zpat := if_neg fun h => hk2 h.2
          have c2 : contrib (o :: ops) k f = zpat := if_neg fun h => e1 h.2
          rw [c1, c2]
          rfl

/-- All flips of a noisy run. -/
def flips (d T : Nat) (b : Bool) (F : List Fault) (M : List Cl) : List (Cl → Bool) :=
  F.map (contrib (codeOps d T b) 0) ++ M.map fun c e => decide (e = c)

theorem noisy_rel (d T : Nat) (hT : 1 ≤ T) (b : Bool) (F : List Fault) (M : List Cl) :
    Rel d T b (noisyMemory (codeOps d T b) F M) (xs (flips d T b F M)) := by
  obtain ⟨h1, h2⟩ := noiseless d T hT b
  have hM : ∀ c, xs (M.map fun c e => decide (e = c)) c = decide (M.count c % 2 = 1) := by
    intro c
    induction M with
    | nil => rfl
    | cons a M ih =>
      rw [List.map_cons, xs_cons]
      beta_reduce
      rw [ih, List.count_cons]
      by_cases h : a = c
      · subst h
        simp only [decide_true, beq_self_eq_true, if_true, Bool.true_xor]
        rcases Nat.mod_two_eq_zero_or_one (M.count a) with h | h
        · have : (M.count a + 1) % 2 = 1 := by omega
          simp [h, this]
        · have : (M.count a + 1) % 2 = 0 := by omega
          simp [h, this]
      · have h' : ¬ c = a := fun e => h e.symm
        simp [h, h']
  have hrun : ∀ c, noisyMemory (codeOps d T b) F M c =
      ((run (codeOps d T b) Sim.zero).m c).xor (xs (flips d T b F M) c) := by
    intro c
    unfold noisyMemory noisyOps flips
    have := noisy_run F (codeOps d T b) 0 Sim.zero
    rw [this, xs_append]
    beta_reduce
    rw [hM]
    simp
  exact ⟨fun t ht j hj => by rw [hrun, h1 t ht j hj]; simp, fun k hk => by rw [hrun, h2 k hk]⟩

theorem nodeVal_xor (d T : Nat) (f g : Cl → Bool) (n : Node) :
    nodeVal d T (fun c => (f c).xor (g c)) n = (nodeVal d T f n).xor (nodeVal d T g n) := by
  have hs : ∀ t j, syn T (fun c => (f c).xor (g c)) t j = (syn T f t j).xor (syn T g t j) := by
    intro t j
    unfold syn
    split
    · rfl
    · beta_reduce
      generalize f (Reg.code, j) = a, f (Reg.code, j + 1) = b, g (Reg.code, j) = c, g (Reg.code, j + 1) = e
      revert a b c e; decide
  cases n with
  | L => rfl
  | R => rfl
  | s t j =>
    simp only [nodeVal, chg, hs]
    split
    · rfl
    · generalize syn T f t j = a, syn T f (t - 1) j = b, syn T g t j = c, syn T g (t - 1) j = e
      revert a b c e; decide

theorem odd_succ (n : Nat) : decide (Odd (n + 1)) = !decide (Odd n) := by
  by_cases h : Odd n
  · have : ¬ Odd (n + 1) := by rw [Nat.odd_add_one]; simpa using h
    simp only [h, this, decide_true, decide_false, Bool.not_true]
  · have : Odd (n + 1) := Nat.odd_add_one.2 h
    simp only [h, this, decide_true, decide_false, Bool.not_false]

/-- A noisy run is described by at most as many edges of the syndrome graph as there are faults. -/
theorem noisy_edges (d T : Nat) (hd : 2 ≤ d) (hT : 1 ≤ T) (S : Graph) (hS : GraphOk d T S) (b : Bool) (F : List Fault) (M : List Cl)
    (hF : ∀ f ∈ F, f.2.1.Valid d) (hM : ∀ c ∈ M, ClValid d T c) :
    ∃ E : List (Tup × Tup), E.length ≤ F.length + M.length ∧ (∀ e ∈ E, S.simple.Adj e.1 e.2) ∧
      (∀ x ∈ ends E, ∃ n ∈ nodes d T, x = nt d n) ∧
      ∀ n ∈ nodes d T, nodeVal d T (xs (flips d T b F M)) n = decide (Odd ((ends E).count (nt d n))) := by
  have key : ∀ l : List (Cl → Bool), (∀ f ∈ l, (∀ n ∈ nodes d T, nodeVal d T f n = false) ∨
      ∃ u v, Edge d T u v ∧ S.simple.Adj (nt d u) (nt d v) ∧
        ∀ n ∈ nodes d T, nodeVal d T f n = (decide (n = u)).xor (decide (n = v))) →
      ∃ E : List (Tup × Tup), E.length ≤ l.length ∧ (∀ e ∈ E, S.simple.Adj e.1 e.2) ∧
      (∀ x ∈ ends E, ∃ n ∈ nodes d T, x = nt d n) ∧
      ∀ n ∈ nodes d T, nodeVal d T (xs l) n = decide (Odd ((ends E).count (nt d n))) := by
    intro l
    induction l with
    | nil =>
      intro _
      exact ⟨[], by simp, by simp, by simp, fun n _ => by simp [nodeVal_zpat]⟩
    | cons f l ih =>
      intro h
      obtain ⟨E, h1, h2, h3, h4⟩ := ih fun g hg => h g (by simp [hg])
      rcases h f (by simp) with h0 | ⟨u, v, he, hadj, h0⟩
      · refine ⟨E, by simp; omega, h2, h3, ?_⟩
        intro n hn
        rw [xs_cons, nodeVal_xor, h0 n hn, h4 n hn]
        simp
      · obtain ⟨hu, hv, hne⟩ := he.mem
        refine ⟨(nt d u, nt d v) :: E, by simp; omega, ?_, ?_, ?_⟩
        · intro e he
          rcases List.mem_cons.1 he with rfl | he
          · exact hadj
          · exact h2 e he
        · intro x hx
          simp only [ends_cons, List.mem_cons] at hx
          rcases hx with rfl | rfl | hx
          · exact ⟨u, hu, rfl⟩
          · exact ⟨v, hv, rfl⟩
          · exact h3 x hx
        · intro n hn
          rw [xs_cons, nodeVal_xor, h0 n hn, h4 n hn, ends_cons, List.count_cons, List.count_cons]
          have e1 : (nt d v == nt d n) = decide (n = v) := by
            rw [Bool.beq_eq_decide_eq, decide_eq_decide]
            exact ⟨fun h => (nt_inj hv hn h).symm, fun h => by rw [h]⟩
          have e2 : (nt d u == nt d n) = decide (n = u) := by
            rw [Bool.beq_eq_decide_eq, decide_eq_decide]
            exact ⟨fun h => (nt_inj hu hn h).symm, fun h => by rw [h]⟩
          rw [e1, e2]
          by_cases a1 : n = u
          · have a2 : ¬ n = v := fun h => hne (a1.symm.trans h)
            simp only [a1, decide_true, hne, decide_false, Bool.xor_false, Bool.true_xor, if_true, Bool.false_eq_true, if_false,
              Nat.add_zero]
            rw [← odd_succ]
          · by_cases a2 : n = v
            · have hne' := hne.symm
              simp only [a2, decide_true, hne', decide_false, Bool.false_xor, Bool.true_xor, if_true, Bool.false_eq_true, if_false,
                Nat.add_zero]
              rw [← odd_succ]
            · simp [a1, a2]
  have h := key (flips d T b F M) ?_
  · obtain ⟨E, h1, h2⟩ := h
    exact ⟨E, by simpa [flips] using h1, h2⟩
  · intro f hf
    rcases List.mem_append.1 hf with hf | hf
    · obtain ⟨a, ha, rfl⟩ := List.mem_map.1 hf
      unfold contrib
      split
      · exact hS.fault b _ _ (List.drop_suffix _ _) (hF a ha)
      · left; intro n _; rw [nodeVal_zpat]
    · obtain ⟨c, hc, rfl⟩ := List.mem_map.1 hf
      have hv := hM c hc
      rcases c with ⟨r, j⟩
      cases r with
      | round t =>
        obtain ⟨L, hL, -, hlink⟩ := suffix_inv d T hT t hv.1.le
        change L <:+ bodyOps d T at hL
        have := hlink hv.1 j hv.2
        have h := hS.fault false L (.link j) (by rw [codeOps_false]; exact hL) hv.2
        rw [this] at h
        exact h
      | code =>
        obtain ⟨L, hL, hinv, -⟩ := suffix_inv d T hT T (le_refl _)
        change L <:+ bodyOps d T at hL
        have := hinv.code j hv
        have h := hS.fault false L (.code j) (by rw [codeOps_false]; exact hL) hv
        have e : pat d T T T j = fun e => decide (e = (Reg.code, j)) := by
          funext e
          rcases e with ⟨r, i⟩
          cases r with
          | round t =>
            simp only [pat]
            have h1 : ∀ P : Prop, ¬ (T ≤ t ∧ t < T ∧ P) := by rintro P ⟨h2, h3, _⟩; omega
            simp [h1]
          | code => simp [pat]
        rw [this, e] at h
        exact h

end Verif.RepCode
