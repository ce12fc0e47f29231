import Verif.Runtime.InvStk1
import Verif.Runtime.InvStk2
import Verif.Runtime.InvStk3
import Verif.Runtime.InvStk4

/-! The stack invariant is preserved. -/
namespace Verif.Runtime
variable {σ V : Type}

theorem invStk_step {body : σ → Act σ V} {s s' : State σ V} (hx : Ctx s) (stp : Step body P s s') : InvStk s' := by
  cases stp with
  | fork w f c k h1 h2 => exact stk_fork hx w f c k h1 h2
  | call w f c k h1 h2 => exact stk_call hx w f c k h1 h2
  | joinNow w f k vs h1 h2 h3 h4 h5 h6 => exact stk_joinNow hx w f k vs h1 h2 h3 h4 h5 h6
  | joinWait w f k h1 h2 h3 => exact stk_joinWait hx w f k h1 h2 h3
  | loadWin w f h1 h2 => exact stk_loadWin hx w f h1 h2
  | loadLose w f h1 h2 => exact stk_loadLose hx w f h1 h2
  | subWin w f h1 h2 => exact stk_subWin hx w f h1 h2
  | subLose w f h1 h2 => exact stk_subLose hx w f h1 h2
  | joinTake w f k vs h1 h2 h3 h4 h5 h6 => exact stk_joinTake hx w f k vs h1 h2 h3 h4 h5 h6
  | retRoot w f v h1 h2 h3 h4 h5 h6 h7 => exact stk_retRoot hx w f v h1 h2 h3 h4 h5 h6 h7
  | retCall w f p v c k h1 h2 h3 h4 h5 h6 => exact stk_retCall hx w f p v c k h1 h2 h3 h4 h5 h6
  | retFork w f p i v h1 h2 h3 h4 h5 => exact stk_retFork hx w f p i v h1 h2 h3 h4 h5
  | popHit w p c c' r h1 h2 => exact stk_popHit hx w p c c' r h1 h2
  | popMiss w p c h1 h2 h3 => exact stk_popMiss hx w p c h1 h2 h3
  | decWin w p c same h1 h2 => exact stk_decWin hx w p c same h1 h2
  | decLose w p c same h1 h2 => exact stk_decLose hx w p c same h1 h2
  | finWin w p same k vs h1 h2 h3 h4 h5 h6 => exact stk_finWin hx w p same k vs h1 h2 h3 h4 h5 h6
  | finLose w same h1 h2 h3 => exact stk_finLose hx w same h1 h2 h3
  | selfSteal w p c r h1 h2 => exact stk_selfSteal hx w p c r h1 h2
  | selfNone w h1 h2 h3 => exact stk_selfNone hx w h1 h2 h3
  | stole w p h1 => exact stk_stole hx w p h1
  | switch w f d k z h1 h2 h3 h4 h5 => exact stk_switch hx w f d k z h1 h2 h3 h4 h5
  | switchRel w z h1 h2 => exact stk_switchRel hx w z h1 h2
  | steal w v p c r h1 h2 h3 h4 h5 => exact stk_steal hx w v p c r h1 h2 h3 h4 h5
  | take w f r h1 h2 h3 h4 h5 => exact stk_take hx w f r h1 h2 h3 h4 h5
  | submit c w => exact stk_submit hx c w

end Verif.Runtime
