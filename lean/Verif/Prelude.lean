import Mathlib.Tactic.Ring
import Mathlib.Tactic.ByContra
import Mathlib.Tactic.Common
import Mathlib.Order.Basic
/- Tactic imports shared by all proof files. -/
