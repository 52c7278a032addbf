import Verif.Lemmas.Expansion
import Verif.Lemmas.PkfTotal
import Verif.Lemmas.NormalSystem

/-!
# Lemmas: normal forms without elementary functions
-/

set_option autoImplicit false

namespace Sympkf.Rand

open Text PKF Pkf

/-- Sums, products, powers, derivatives and expectations of symbols with the property `S` and functions with the property `F`. -/
def Plain (S : Str → Prop) (F : Str → List Str → Prop) : Ex → Prop
  | .num _ => True
  | .sym s => S s
  | .fn u args => F u args
  | .add a b => Plain S F a ∧ Plain S F b
  | .mul a b => Plain S F a ∧ Plain S F b
  | .pow a _ => Plain S F a
  | .deriv a _ => Plain S F a
  | .ex a => Plain S F a
  | _ => False

/-- Variables of a derivative in the order of their codes, with positive orders. -/
def SortedV (vars : List (Str × ℕ)) : Prop :=
  vars ≠ [] ∧ vars.Pairwise (fun v w => ltNat (codeStr v.1) (codeStr w.1) = true) ∧ ∀ v ∈ vars, 0 < v.2

/-- A function or an expectation. -/
def isBase : Ex → Prop
  | .fn _ _ => True
  | .ex _ => True
  | _ => False

/-- The same in the normal form: only functions and expectations are differentiated. -/
def Neat (S : Str → Prop) (F : Str → List Str → Prop) : Ex → Prop
  | .num _ => True
  | .sym s => S s
  | .fn u args => F u args
  | .add a b => Neat S F a ∧ Neat S F b
  | .mul a b => Neat S F a ∧ Neat S F b
  | .pow a _ => Neat S F a
  | .deriv a vars => Neat S F a ∧ isBase a ∧ SortedV vars
  | .ex a => Neat S F a
  | _ => False

variable {S S' : Str → Prop} {F F' : Str → List Str → Prop}

theorem Plain.mono (hS : ∀ s, S s → S' s) (hF : ∀ u args, F u args → F' u args) {e : Ex} (h : Plain S F e) : Plain S' F' e := by
  induction e with
  | num => trivial
  | sym s => exact hS s h
  | fn u args => exact hF u args h
  | func g a ih => exact h.elim
  | add a b iha ihb => exact ⟨iha h.1, ihb h.2⟩
  | mul a b iha ihb => exact ⟨iha h.1, ihb h.2⟩
  | pow a q ih => exact ih h
  | deriv a vars ih => exact ih h
  | integ a x ih => exact h.elim
  | ex a ih => exact ih h
  | other b => exact h.elim

theorem Neat.mono (hS : ∀ s, S s → S' s) (hF : ∀ u args, F u args → F' u args) {e : Ex} (h : Neat S F e) : Neat S' F' e := by
  induction e with
  | num => trivial
  | sym s => exact hS s h
  | fn u args => exact hF u args h
  | func g a ih => exact h.elim
  | add a b iha ihb => exact ⟨iha h.1, ihb h.2⟩
  | mul a b iha ihb => exact ⟨iha h.1, ihb h.2⟩
  | pow a q ih => exact ih h
  | deriv a vars ih => exact ⟨ih h.1, h.2⟩
  | integ a x ih => exact h.elim
  | ex a ih => exact ih h
  | other b => exact h.elim

theorem Neat.plain {e : Ex} (h : Neat S F e) : Plain S F e := by
  induction e with
  | num => trivial
  | sym s => exact h
  | fn u args => exact h
  | func g a ih => exact h.elim
  | add a b iha ihb => exact ⟨iha h.1, ihb h.2⟩
  | mul a b iha ihb => exact ⟨iha h.1, ihb h.2⟩
  | pow a q ih => exact ih h
  | deriv a vars ih => exact ih h.1
  | integ a x ih => exact h.elim
  | ex a ih => exact ih h
  | other b => exact h.elim

theorem SortedV.nodup {vars : List (Str × ℕ)} (h : SortedV vars) : (vars.map Prod.fst).Nodup := by
  rw [List.Nodup, List.pairwise_map]
  refine h.2.1.imp (fun {v w} hvw e => ?_)
  rw [e, ltNat_irrefl] at hvw
  cases hvw

theorem sortedV_one (x : Str) : SortedV [(x, 1)] := ⟨by simp, List.pairwise_singleton _ _, by simp⟩

theorem sortedV_bump (x : Str) (vars : List (Str × ℕ)) (h : vars = [] ∨ SortedV vars) : SortedV (bumpVar x vars) := by
  induction vars with
  | nil => exact sortedV_one x
  | cons v vars ih =>
    obtain ⟨y, n⟩ := v
    obtain ⟨-, h2, h3⟩ := h.resolve_left (by simp)
    obtain ⟨h4, h5⟩ := List.pairwise_cons.1 h2
    unfold bumpVar
    split
    · exact ⟨by simp, List.pairwise_cons.2 ⟨h4, h5⟩, fun w hw => by
        rcases List.mem_cons.1 hw with rfl | hw
        · exact Nat.succ_pos n
        · exact h3 w (by simp [hw])⟩
    · rename_i hne
      split
      · rename_i hlt
        refine ⟨by simp, List.pairwise_cons.2 ⟨fun w hw => ?_, h2⟩, fun w hw => ?_⟩
        · rcases List.mem_cons.1 hw with rfl | hw
          · exact hlt
          · exact ltNat_trans _ _ _ hlt (h4 w hw)
        · rcases List.mem_cons.1 hw with rfl | hw
          · exact Nat.one_pos
          · exact h3 w hw
      · rename_i hlt
        have h6 : vars = [] ∨ SortedV vars := by
          by_cases e : vars = []
          · exact .inl e
          · exact .inr ⟨e, h5, fun w hw => h3 w (by simp [hw])⟩
        obtain ⟨h7, h8, h9⟩ := ih h6
        refine ⟨by simp, List.pairwise_cons.2 ⟨fun w hw => ?_, h8⟩, fun w hw => ?_⟩
        · rcases mem_bumpVar x vars w hw with e | ⟨w', hw', e⟩
          · rw [e]
            exact (codeStr_total hne).resolve_left hlt
          · rw [← e]; exact h4 w' hw'
        · rcases List.mem_cons.1 hw with rfl | hw
          · exact h3 _ (by simp)
          · exact h9 w hw

theorem neat_expr : ExprOK (Neat S F) := ⟨fun _ => trivial, fun _ _ h1 h2 => ⟨h1, h2⟩, fun _ _ h1 h2 => ⟨h1, h2⟩⟩

theorem neat_hereditary : Hereditary (Neat S F) where
  toExprOK := neat_expr
  func _ _ _ _ _ h := h.elim
  add_inv _ _ h := h
  mul_inv _ _ h := h
  pow _ _ := Iff.rfl

/-- The property for every atom. -/
abbrev NeatP (S : Str → Prop) (F : Str → List Str → Prop) (p : Poly) : Prop := AllF (fun a _ => Neat S F a) p

theorem neat_mulOK : MulOK (fun a (_ : ℚ) => Neat S F a) := fun _ _ _ h _ => h

theorem neat_toEx (p : Poly) (hp : NeatP S F p) : Neat S F (toEx p) := hereditary_toEx neat_hereditary p hp

theorem neat_diffOK (x : Str) : DiffOK (fun a (_ : ℚ) => Neat S F a) x :=
  neat_hereditary.diffOK x (fun _ _ h => ⟨h.1, h.2.1, sortedV_bump x _ (.inr h.2.2)⟩) (fun a ho ha => by
    cases a with
    | fn u args => exact ⟨ha, trivial, sortedV_one x⟩
    | ex a => exact ⟨ha, trivial, sortedV_one x⟩
    | func g a => exact ha.elim
    | integ a y => exact ha.elim
    | other b => exact ha.elim
    | _ => cases ho)

theorem neat_pdiffs (vars : List (Str × ℕ)) (p : Poly) (hp : NeatP S F p) : NeatP S F (pdiffs vars p) :=
  allF_pdiffs neat_mulOK vars (fun v _ => neat_diffOK v.1) p hp

theorem neat_ppow (p : Poly) (q : ℚ) (hp : NeatP S F p) : NeatP S F (ppow p q) := hereditary_ppow neat_hereditary p q hp

theorem sortedV_take (vars : List (Str × ℕ)) (h : SortedV vars) : SortedV (vars.take 1) := by
  obtain ⟨h1, h2, h3⟩ := h
  cases vars with
  | nil => exact absurd rfl h1
  | cons v vars => exact ⟨by simp, by simp, fun w hw => h3 w (List.mem_of_mem_take hw)⟩

theorem neat_monoEx (m : Mono) (h : AllM (fun a _ => Neat S F a) m) : Neat S F (monoEx m) :=
  exprOK_monoEx neat_expr (fun a q h => by unfold factorEx; split <;> exact h) m h

theorem neat_expectTerm (t : Mono × ℚ) (h : AllM (fun a _ => Neat S F a) t.1) : NeatP S F (expectTerm t) := by
  have hd : AllM (fun a _ => Neat S F a) (t.1.filter (fun f => !rnd f.1)) := fun f hf => h f (List.mem_of_mem_filter hf)
  have hr : AllM (fun a _ => Neat S F a) (t.1.filter (fun f => rnd f.1)) := fun f hf => h f (List.mem_of_mem_filter hf)
  have key : ∀ r : Mono, AllM (fun a _ => Neat S F a) r → NeatP S F (pmulTerm (t.1.filter (fun f => !rnd f.1)) t.2 (patom (.ex (monoEx r)))) :=
    fun r hr => allF_pmulTerm neat_mulOK _ _ _ hd (allF_patom _ (neat_monoEx r hr))
  unfold expectTerm
  simp only []
  split
  · exact .cons h .nil
  · rename_i u args vars q e
    rw [e] at hr
    split
    · have := hr.head
      exact allF_pmulTerm neat_mulOK _ _ _ hd (allF_patom _ ⟨this.1, trivial, sortedV_take _ this.2.2⟩)
    · exact key _ hr
  · rename_i b x q e
    rw [e] at hr
    exact hr.head.elim
  · exact key _ hr

theorem neat_pexpect (p : Poly) (hp : NeatP S F p) : NeatP S F (pexpect p) := by
  induction p with
  | nil => exact .nil
  | cons t p ih => exact allF_padd _ _ (neat_expectTerm t hp.head) (ih hp.tail)

theorem neat_ofEx (e : Ex) (h : Plain S F e) : NeatP S F (ofEx e) := by
  induction e with
  | num q => exact allF_pconst q
  | sym s => exact allF_patom _ h
  | fn u args => exact allF_patom _ h
  | func g a ih => exact h.elim
  | add a b iha ihb => exact allF_padd _ _ (iha h.1) (ihb h.2)
  | mul a b iha ihb => exact allF_pmul neat_mulOK _ _ (iha h.1) (ihb h.2)
  | pow a q ih => exact neat_ppow _ _ (ih h)
  | deriv a vars ih => exact neat_pdiffs _ _ (ih h)
  | integ a x ih => exact h.elim
  | ex a ih => exact neat_pexpect _ (ih h)
  | other b => exact h.elim

theorem neat_eval (e : Ex) (h : Plain S F e) : Neat S F (eval e) := neat_toEx _ (neat_ofEx e h)

theorem neat_subst (old : Ex) (new : Poly) (hS : ∀ s, S s → .sym s ≠ old → S' s) (hF : ∀ u args, F u args → .fn u args ≠ old → F' u args)
    (hn : NeatP S' F' new) (e : Ex) (h : Plain S F e) : NeatP S' F' (subst old new e) := by
  induction e with
  | num q => unfold subst; split; exact hn; exact allF_pconst q
  | sym s => unfold subst; split; exact hn; rename_i hne; exact allF_patom _ (hS s h hne)
  | fn u args => unfold subst; split; exact hn; rename_i hne; exact allF_patom _ (hF u args h hne)
  | func g a ih => exact h.elim
  | add a b iha ihb => unfold subst; split; exact hn; exact allF_padd _ _ (iha h.1) (ihb h.2)
  | mul a b iha ihb => unfold subst; split; exact hn; exact allF_pmul neat_mulOK _ _ (iha h.1) (ihb h.2)
  | pow a q ih => unfold subst; split; exact hn; exact neat_ppow _ _ (ih h)
  | deriv a vars ih =>
    unfold subst
    split
    · exact hn
    · dsimp only
      split
      · exact neat_pdiffs _ _ hn
      · exact neat_pdiffs _ _ (ih h)
  | integ a x ih => exact h.elim
  | ex a ih => unfold subst; split; exact hn; exact neat_pexpect _ (ih h)
  | other b => exact h.elim

theorem neat_substEx (k v e : Ex) (hv : Plain S F v) (h : Plain S F e) : Neat S F (substEx k v e) :=
  neat_toEx _ (neat_subst _ _ (fun _ h _ => h) (fun _ _ h _ => h) (neat_ofEx v hv) _ (neat_eval e h).plain)

theorem neat_substAll (l : List (Ex × Ex)) (hl : ∀ kv ∈ l, Plain S F kv.2) (e : Ex) (h : Plain S F e) : Neat S F (substAll l e) := by
  unfold substAll
  have h0 := neat_eval e h
  generalize eval e = e0 at h0
  induction l generalizing e0 with
  | nil => exact h0
  | cons kv l ih => exact ih (fun kv h => hl kv (by simp [h])) _ (neat_substEx _ _ _ (hl kv (by simp)) h0.plain)

/-- Substitution of functions: those that are left have the property `F`, when all others are replaced. -/
theorem neat_remove (l : List (Ex × Ex)) (hk : ∀ kv ∈ l, ∃ u args, kv.1 = .fn u args) (hl : ∀ kv ∈ l, Plain S F kv.2) (e : Ex)
    (h : Plain S (fun u args => F u args ∨ ∃ kv ∈ l, kv.1 = .fn u args) e) : Neat S F (substAll l e) := by
  unfold substAll
  have h0 := neat_eval e h
  generalize eval e = e0 at h0
  clear h
  induction l generalizing e0 with
  | nil =>
    refine Neat.mono (fun _ h => h) (fun u args h => h.resolve_right (by simp)) h0
  | cons kv l ih =>
    refine ih (fun kv h => hk kv (by simp [h])) (fun kv h => hl kv (by simp [h])) _ ?_
    obtain ⟨u, args, e1⟩ := hk kv (by simp)
    have e2 : eval kv.1 = .fn u args := by rw [e1]; exact Spec.eval_fn _ _
    refine neat_toEx _ (neat_subst _ _ (fun _ h _ => h) ?_ (neat_ofEx _ ((hl kv (by simp)).mono (fun _ h => h) (fun _ _ h => .inl h))) _
      (neat_eval _ h0.plain).plain)
    rintro u' args' (h1 | ⟨kv', hkv', h1⟩) hne
    · exact .inl h1
    · rcases List.mem_cons.1 hkv' with rfl | hkv'
      · rw [e2] at hne; rw [e1] at h1; exact absurd h1.symm hne
      · exact .inr ⟨kv', hkv', h1⟩

end Sympkf.Rand
