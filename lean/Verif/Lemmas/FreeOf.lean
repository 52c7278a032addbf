import Verif.Spec.Decouple
import Verif.Lemmas.Expansion
import Verif.Lemmas.Trend

/-!
# Lemmas: expressions in which given functions do not occur
-/

set_option autoImplicit false

namespace Sympkf.Spec

open Text Rand PKF Pkf

variable {N : List Str}

theorem fieldFree_hereditary : Hereditary (FreeOf N) where
  num _ := trivial
  add _ _ h h' := ⟨h, h'⟩
  mul _ _ h h' := ⟨h, h'⟩
  func _ _ _ _ _ h := ⟨h, h⟩
  add_inv _ _ h := h
  mul_inv _ _ h := h
  pow _ _ := Iff.rfl

/-- The polynomials in such expressions. -/
abbrev FreeP (N : List Str) (p : Poly) : Prop := AllF (fun a _ => FreeOf N a) p

theorem fieldFree_mulOK : MulOK (fun a (_ : ℚ) => FreeOf N a) := fun _ _ _ h _ => h

theorem fieldFree_toEx (p : Poly) (hp : FreeP N p) : FreeOf N (toEx p) := hereditary_toEx fieldFree_hereditary p hp

theorem fieldFree_diffOK (x : Str) : DiffOK (fun a (_ : ℚ) => FreeOf N a) x :=
  fieldFree_hereditary.diffOK x (fun _ _ h => h) (fun _ _ h => h)

theorem fieldFree_pdiffs (vars : List (Str × ℕ)) (p : Poly) (hp : FreeP N p) : FreeP N (pdiffs vars p) :=
  allF_pdiffs fieldFree_mulOK vars (fun v _ => fieldFree_diffOK v.1) p hp

theorem fieldFree_ppow (p : Poly) (q : ℚ) (hp : FreeP N p) : FreeP N (ppow p q) := hereditary_ppow fieldFree_hereditary p q hp

theorem fieldFree_monoEx (m : Mono) (h : AllM (fun a _ => FreeOf N a) m) : FreeOf N (monoEx m) :=
  exprOK_monoEx fieldFree_hereditary.toExprOK (fun a q h => by unfold factorEx; split <;> exact h) m h

theorem fieldFree_expectTerm (t : Mono × ℚ) (h : AllM (fun a _ => FreeOf N a) t.1) : FreeP N (expectTerm t) := by
  have hd : AllM (fun a _ => FreeOf N a) (t.1.filter (fun f => !rnd f.1)) := fun f hf => h f (List.mem_of_mem_filter hf)
  have hr : AllM (fun a _ => FreeOf N a) (t.1.filter (fun f => rnd f.1)) := fun f hf => h f (List.mem_of_mem_filter hf)
  have key : ∀ r : Mono, AllM (fun a _ => FreeOf N a) r →
      FreeP N (pmulTerm (t.1.filter (fun f => !rnd f.1)) t.2 (patom (.ex (monoEx r)))) :=
    fun r hr => allF_pmulTerm fieldFree_mulOK _ _ _ hd (allF_patom _ (fieldFree_monoEx r hr))
  unfold expectTerm
  simp only []
  split
  · exact .cons h .nil
  · rename_i u args vars q e
    rw [e] at hr
    split
    · exact allF_pmulTerm fieldFree_mulOK _ _ _ hd (allF_patom _ hr.head)
    · exact key _ hr
  · rename_i b x q e
    rw [e] at hr
    split
    · exact allF_pmulTerm fieldFree_mulOK _ _ _ hd (allF_patom _ hr.head)
    · exact key _ hr
  · exact key _ hr

theorem fieldFree_pexpect (p : Poly) (hp : FreeP N p) : FreeP N (pexpect p) := by
  induction p with
  | nil => exact .nil
  | cons t p ih => exact allF_padd _ _ (fieldFree_expectTerm t hp.head) (ih hp.tail)

theorem fieldFree_ofEx (e : Ex) (h : FreeOf N e) : FreeP N (ofEx e) := by
  induction e with
  | num q => exact allF_pconst q
  | sym s => exact allF_patom _ h
  | fn u args => exact allF_patom _ h
  | func g a ih => exact allF_patom _ (fieldFree_toEx _ (ih h))
  | add a b iha ihb => exact allF_padd _ _ (iha h.1) (ihb h.2)
  | mul a b iha ihb => exact allF_pmul fieldFree_mulOK _ _ (iha h.1) (ihb h.2)
  | pow a q ih => exact fieldFree_ppow _ _ (ih h)
  | deriv a vars ih => exact fieldFree_pdiffs _ _ (ih h)
  | integ a x ih => exact allF_patom _ (fieldFree_toEx _ (ih h))
  | ex a ih => exact fieldFree_pexpect _ (ih h)
  | other b => exact allF_patom _ h

theorem fieldFree_eval (e : Ex) (h : FreeOf N e) : FreeOf N (eval e) := fieldFree_toEx _ (fieldFree_ofEx e h)

/-- Substitution: what is substituted matters only if the functions do not occur in what is replaced. -/
theorem fieldFree_subst (old : Ex) (new : Poly) (hn : FreeOf N old → FreeP N new) (e : Ex) (h : FreeOf N e) : FreeP N (subst old new e) := by
  have hit : e = old → FreeP N new := fun he => hn (he ▸ h)
  induction e with
  | num q => unfold subst; split; exact hit ‹_›; exact allF_pconst q
  | sym s => unfold subst; split; exact hit ‹_›; exact allF_patom _ h
  | fn u args => unfold subst; split; exact hit ‹_›; exact allF_patom _ h
  | func g a ih => unfold subst; split; exact hit ‹_›; exact allF_patom _ (fieldFree_toEx _ (ih h (fun he => hn (he ▸ h))))
  | add a b iha ihb =>
    unfold subst; split; exact hit ‹_›
    exact allF_padd _ _ (iha h.1 (fun he => hn (he ▸ h.1))) (ihb h.2 (fun he => hn (he ▸ h.2)))
  | mul a b iha ihb =>
    unfold subst; split; exact hit ‹_›
    exact allF_pmul fieldFree_mulOK _ _ (iha h.1 (fun he => hn (he ▸ h.1))) (ihb h.2 (fun he => hn (he ▸ h.2)))
  | pow a q ih => unfold subst; split; exact hit ‹_›; exact fieldFree_ppow _ _ (ih h (fun he => hn (he ▸ h)))
  | deriv a vars ih =>
    unfold subst
    split
    · exact hit ‹_›
    · dsimp only
      split
      · rename_i rest hr
        refine fieldFree_pdiffs _ _ (hn ?_)
        unfold derivRest at hr
        split at hr
        · split at hr
          · rename_i e; subst e; exact h
          · cases hr
        · cases hr
      · exact fieldFree_pdiffs _ _ (ih h (fun he => hn (he ▸ h)))
  | integ a x ih => unfold subst; split; exact hit ‹_›; exact allF_patom _ (fieldFree_toEx _ (ih h (fun he => hn (he ▸ h))))
  | ex a ih => unfold subst; split; exact hit ‹_›; exact fieldFree_pexpect _ (ih h (fun he => hn (he ▸ h)))
  | other b => unfold subst; split; exact hit ‹_›; exact allF_patom _ h

theorem fieldFree_substEx (k v e : Ex) (hv : FreeOf N (eval k) → FreeOf N v) (h : FreeOf N e) : FreeOf N (substEx k v e) :=
  fieldFree_toEx _ (fieldFree_subst _ _ (fun hk => fieldFree_ofEx v (hv hk)) _ (fieldFree_eval e h))

theorem fieldFree_substAll (l : List (Ex × Ex)) (hl : ∀ kv ∈ l, FreeOf N (eval kv.1) → FreeOf N kv.2) (e : Ex) (h : FreeOf N e) :
    FreeOf N (substAll l e) := by
  unfold substAll
  have h0 := fieldFree_eval e h
  generalize eval e = e0 at h0
  induction l generalizing e0 with
  | nil => exact h0
  | cons kv l ih => exact ih (fun kv h => hl kv (by simp [h])) _ (fieldFree_substEx _ _ _ (hl kv (by simp)) h0)

theorem fieldFree_taylor (p q : Poly) (hp : FreeP N p) (h : taylor p = .ok q) : FreeP N q :=
  taylor_all fieldFree_hereditary (fun _ _ _ _ _ h => h) trivial p q hp h

end Sympkf.Spec
