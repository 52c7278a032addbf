import Verif.Model.Pkf
import Verif.Lemmas.PolyAll

/-!
# Lemmas: the form of Taylor expansions
-/

set_option autoImplicit false

namespace Sympkf.Rand

open Text PKF Pkf

variable {G : Ex → Prop}

/-- The property for every coefficient of an expansion. -/
def AllT (G : Ex → Prop) (j : Taylor) : Prop :=
  AllF (fun a _ => G a) j.1 ∧ AllF (fun a _ => G a) j.2.1 ∧ AllF (fun a _ => G a) j.2.2

theorem mulOK_prop (G : Ex → Prop) : MulOK (fun a (_ : ℚ) => G a) := fun _ _ _ h _ => h

theorem allT_tmul {a b : Taylor} (ha : AllT G a) (hb : AllT G b) : AllT G (tmul a b) := by
  have m := mulOK_prop G
  obtain ⟨a0, a1, a2⟩ := ha
  obtain ⟨b0, b1, b2⟩ := hb
  exact ⟨allF_pmul m _ _ a0 b0, allF_padd _ _ (allF_pmul m _ _ a0 b1) (allF_pmul m _ _ a1 b0),
    allF_padd _ _ (allF_pmul m _ _ a0 b2) (allF_padd _ _ (allF_pmul m _ _ a1 b1) (allF_pmul m _ _ a2 b0))⟩

theorem allT_tpow {a : Taylor} (ha : AllT G a) (n : ℕ) : AllT G (tpow a n) := by
  induction n with
  | zero => exact ⟨allF_pconst 1, .nil, .nil⟩
  | succ n ih => exact allT_tmul ih ha

theorem allT_tcompose {f0 f1 f2 : Poly} {a : Taylor} (h0 : AllF (fun a _ => G a) f0) (h1 : AllF (fun a _ => G a) f1)
    (h2 : AllF (fun a _ => G a) f2) (ha : AllT G a) : AllT G (tcompose f0 f1 f2 a) := by
  have m := mulOK_prop G
  obtain ⟨a0, a1, a2⟩ := ha
  exact ⟨h0, allF_pmul m _ _ h1 a1, allF_padd _ _ (allF_pmul m _ _ h1 a2)
    (allF_pmul m _ _ (allF_pconst _) (allF_pmul m _ _ h2 (allF_pmul m _ _ a1 a1)))⟩

theorem hereditary_eps (hG : Hereditary G) : Hereditary (fun a => G a ∧ occurs epsSym a = false) where
  num q := ⟨hG.num q, rfl⟩
  add a b h h' := ⟨hG.add _ _ h.1 h'.1, by simp [occurs, h.2, h'.2]⟩
  mul a b h h' := ⟨hG.mul _ _ h.1 h'.1, by simp [occurs, h.2, h'.2]⟩
  func g h a e e' ha := ⟨⟨(hG.func g h a e e' ha.1).1, ha.2⟩, (hG.func g h a e e' ha.1).2, ha.2⟩
  add_inv a b h := by
    obtain ⟨h1, h2⟩ := h
    simp only [occurs, Bool.or_eq_false_iff] at h2
    exact ⟨⟨(hG.add_inv _ _ h1).1, h2.1⟩, (hG.add_inv _ _ h1).2, h2.2⟩
  mul_inv a b h := by
    obtain ⟨h1, h2⟩ := h
    simp only [occurs, Bool.or_eq_false_iff] at h2
    exact ⟨⟨(hG.mul_inv _ _ h1).1, h2.1⟩, (hG.mul_inv _ _ h1).2, h2.2⟩
  pow a q := and_congr (hG.pow a q) Iff.rfl

theorem bind_eq_ok {ε α β : Type} {x : Except ε α} {f : α → Except ε β} {b : β} (h : x >>= f = .ok b) : ∃ a, x = .ok a ∧ f a = .ok b := by
  cases x with
  | error e => exact nomatch h
  | ok a => exact ⟨a, rfl, h⟩

theorem expansion_all (hG : Hereditary G) (hF : ∀ g a, (dfunc g).isSome → G (.func g a) → ∀ b, G b → G (.func g b)) (e : Ex)
    (he : G e) (j : Taylor) (hj : expansion e = .ok j) : AllT (fun a => G a ∧ occurs epsSym a = false) j := by
  have hE := hereditary_eps hG
  have m := mulOK_prop (fun a => G a ∧ occurs epsSym a = false)
  induction e generalizing j
  all_goals
    unfold expansion at hj
    split at hj
    · rename_i ho
      cases hj
      exact ⟨hereditary_reEx hE _ ⟨he, ho⟩, .nil, .nil⟩
  case sym s _ => cases hj; exact ⟨.nil, allF_pconst 1, .nil⟩
  case add a b iha ihb _ =>
    obtain ⟨ja, h1, hj⟩ := bind_eq_ok hj
    obtain ⟨jb, h2, hj⟩ := bind_eq_ok hj
    cases hj
    obtain ⟨a0, a1, a2⟩ := iha (hG.add_inv _ _ he).1 _ h1
    obtain ⟨b0, b1, b2⟩ := ihb (hG.add_inv _ _ he).2 _ h2
    exact ⟨allF_padd _ _ a0 b0, allF_padd _ _ a1 b1, allF_padd _ _ a2 b2⟩
  case mul a b iha ihb _ =>
    obtain ⟨ja, h1, hj⟩ := bind_eq_ok hj
    obtain ⟨jb, h2, hj⟩ := bind_eq_ok hj
    cases hj
    exact allT_tmul (iha (hG.mul_inv _ _ he).1 _ h1) (ihb (hG.mul_inv _ _ he).2 _ h2)
  case pow a q ih _ =>
    obtain ⟨ja, h1, hj⟩ := bind_eq_ok hj
    have hja := ih ((hG.pow a q).1 he) _ h1
    split at hj
    · cases hj; exact allT_tpow hja _
    · split at hj
      · cases hj
      · cases hj
        exact allT_tcompose (hereditary_ppow hE _ _ hja.1) (allF_pmul m _ _ (allF_pconst _) (hereditary_ppow hE _ _ hja.1))
          (allF_pmul m _ _ (allF_pconst _) (hereditary_ppow hE _ _ hja.1)) hja
  case func g a ih _ =>
    dsimp only at hj
    split at hj
    · cases hj
    · rename_i d hg
      obtain ⟨ja, h1, hj⟩ := bind_eq_ok hj
      have hs : (dfunc g).isSome := by rw [hg]; rfl
      split at hj
      · cases hj
      · cases hj
        have hja := ih (hG.func g g a hs hs he).1 _ h1
        have k := hereditary_toEx hE _ hja.1
        have e0 : G (.func g (toEx ja.1)) := hF g a hs he _ k.1
        obtain ⟨-, e1, e2⟩ := hE.dfunc hg (toEx ja.1) ⟨e0, k.2⟩
        exact allT_tcompose (allF_patom _ ⟨e0, k.2⟩) (hereditary_reEx hE _ e1) (hereditary_reEx hE _ e2) hja
  all_goals exact nomatch hj

theorem taylor_all (hG : Hereditary G) (hF : ∀ g a, (dfunc g).isSome → G (.func g a) → ∀ b, G b → G (.func g b))
    (hs : G (.sym epsSym)) (p q : Poly) (hp : AllF (fun a _ => G a) p) (h : taylor p = .ok q) : AllF (fun a _ => G a) q := by
  unfold taylor at h
  obtain ⟨j, h1, h2⟩ := bind_eq_ok h
  cases h2
  obtain ⟨a0, a1, a2⟩ := expansion_all hG hF _ (hereditary_toEx hG p hp) j h1
  have w : ∀ r : Poly, AllF (fun a _ => G a ∧ occurs epsSym a = false) r → AllF (fun a _ => G a) r :=
    fun r hr t ht f hf => (hr t ht f hf).1
  have m := mulOK_prop G
  refine allF_padd _ _ (w _ a0) (allF_padd _ _ (allF_pmul m _ _ (allF_patom _ hs) (w _ a1)) (allF_pmul m _ _ ?_ (w _ a2)))
  exact .cons (.cons hs .nil) .nil

end Sympkf.Rand
