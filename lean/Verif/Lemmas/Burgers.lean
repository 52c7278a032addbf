import Verif.Model.Burgers
import Verif.Props.PkfObject

/-!
# Lemmas: the systems of the Burgers module, computed
-/

set_option autoImplicit false

namespace Sympkf.Burgers

open Text Rand PDE
open PKF hiding time

theorem unclosed_eq : pkf.unclosedTerms [] = .ok [.ex (.mul u.epsilon (.deriv u.epsilon [(x, 4)]))] :=
  eq_ok _ _ (by decide +kernel)

/-- The closed system. -/
def closed : List Equation :=
  [⟨.deriv (.fn "u".toList [time, x]) [(time, 1)], 
    .add (.mul (.sym .plain "kappa".toList) (.deriv (.fn "u".toList [time, x]) [(x, 2)]))
      (.add (.mul (.num (-1)) (.mul (.fn "u".toList [time, x]) (.deriv (.fn "u".toList [time, x]) [(x, 1)])))
      (.mul (.num (-1/2)) (.deriv (.fn "{V_{u}}".toList [time, x]) [(x, 1)])))⟩,
   ⟨.deriv (.fn "{V_{u}}".toList [time, x]) [(time, 1)], 
    .add (.mul (.num (-1/2)) (.mul (.sym .plain "kappa".toList) (.mul (.pow (.fn "{V_{u}}".toList [time, x]) (.num (-1))) (.pow (.deriv (.fn "{V_{u}}".toList [time, x]) [(x, 1)]) (.num (2))))))
      (.add (.mul (.num (-2)) (.mul (.sym .plain "kappa".toList) (.mul (.fn "{V_{u}}".toList [time, x]) (.pow (.fn "{s_{u,xx}}".toList [time, x]) (.num (-1))))))
      (.add (.mul (.sym .plain "kappa".toList) (.deriv (.fn "{V_{u}}".toList [time, x]) [(x, 2)]))
      (.add (.mul (.num (-1)) (.mul (.fn "u".toList [time, x]) (.deriv (.fn "{V_{u}}".toList [time, x]) [(x, 1)])))
      (.mul (.num (-2)) (.mul (.fn "{V_{u}}".toList [time, x]) (.deriv (.fn "u".toList [time, x]) [(x, 1)]))))))⟩,
   ⟨.deriv (.fn "{s_{u,xx}}".toList [time, x]) [(time, 1)], 
    .add (.mul (.num (4)) (.sym .plain "kappa".toList))
      (.add (.mul (.num (-2)) (.mul (.sym .plain "kappa".toList) (.mul (.pow (.fn "{V_{u}}".toList [time, x]) (.num (-1))) (.mul (.fn "{s_{u,xx}}".toList [time, x]) (.deriv (.fn "{V_{u}}".toList [time, x]) [(x, 2)])))))
      (.add (.mul (.sym .plain "kappa".toList) (.mul (.pow (.fn "{V_{u}}".toList [time, x]) (.num (-1))) (.mul (.deriv (.fn "{V_{u}}".toList [time, x]) [(x, 1)]) (.deriv (.fn "{s_{u,xx}}".toList [time, x]) [(x, 1)]))))
      (.add (.mul (.num (2)) (.mul (.sym .plain "kappa".toList) (.mul (.pow (.fn "{V_{u}}".toList [time, x]) (.num (-2))) (.mul (.fn "{s_{u,xx}}".toList [time, x]) (.pow (.deriv (.fn "{V_{u}}".toList [time, x]) [(x, 1)]) (.num (2)))))))
      (.add (.mul (.num (-2)) (.mul (.sym .plain "kappa".toList) (.mul (.pow (.fn "{s_{u,xx}}".toList [time, x]) (.num (-1))) (.pow (.deriv (.fn "{s_{u,xx}}".toList [time, x]) [(x, 1)]) (.num (2))))))
      (.add (.mul (.sym .plain "kappa".toList) (.deriv (.fn "{s_{u,xx}}".toList [time, x]) [(x, 2)]))
      (.add (.mul (.num (-1)) (.mul (.fn "u".toList [time, x]) (.deriv (.fn "{s_{u,xx}}".toList [time, x]) [(x, 1)])))
      (.mul (.num (2)) (.mul (.fn "{s_{u,xx}}".toList [time, x]) (.deriv (.fn "u".toList [time, x]) [(x, 1)])))))))))⟩]

theorem closed_eq : ∃ l, pkf.inAspect [(.ex (.mul u.epsilon (.deriv u.epsilon [(x, 4)])), p18Aspect)] = .ok l ∧ ofEqns l = some closed := by
  have key : ∀ r : Except PyErr (List Eqn), (match r with | .ok l => decide (ofEqns l = some closed) | .error _ => false) = true →
      ∃ l, r = .ok l ∧ ofEqns l = some closed := by
    intro r h
    cases r with
    | error e => cases h
    | ok l => exact ⟨l, rfl, of_decide_eq_true h⟩
  exact key _ (by decide +kernel)

end Sympkf.Burgers
