import Verif.Model.Level
/-!
# C21: the validation level is scoped
-/

namespace Verif.Level
open Verif.Py

/-! ## Specification: what a scoped level means

The level is an *environment* handed down to statements; nothing is ever restored because nothing is ever changed.
Only meaningful for programs that do not call `set_validation_level`. -/

/-- levels read and how the statement ends, when `env` is the level of the innermost enclosing block -/
def lexical (env : Level) : Prog → List Level × End
  | .skip => ([], .normal)
  | .seq p q =>
    match (lexical env p).2 with
    | .normal => ((lexical env p).1 ++ (lexical env q).1, (lexical env q).2)
    | e => ((lexical env p).1, e)
  | .get => ([env], .normal)
  | .set _ => ([], .normal)
  | .block (.level l) body => lexical l body
  | .block .bad _ => ([], .raised .valueError)
  | .raise e => ([], .raised e)
  | .ret => ([], .returned)
  | .tryExcept body handler =>
    match (lexical env body).2 with
    | .raised _ => ((lexical env body).1 ++ (lexical env handler).1, (lexical env handler).2)
    | e => ((lexical env body).1, e)

/-- the program never calls `set_validation_level` -/
def NoSet : Prog → Prop
  | .seq p q => NoSet p ∧ NoSet q
  | .set _ => False
  | .block _ b => NoSet b
  | .tryExcept b h => NoSet b ∧ NoSet h
  | _ => True

/-- no block of the program is left by an exception (whatever level it is run at); exceptions may be raised and caught
inside a block, and raised outside blocks -/
def BlocksDontRaise : Prog → Prop
  | .seq p q => BlocksDontRaise p ∧ BlocksDontRaise q
  | .block (.level l) b => BlocksDontRaise b ∧ ∀ e, (lexical l b).2 ≠ .raised e
  | .tryExcept b h => BlocksDontRaise b ∧ BlocksDontRaise h
  | _ => True

/-- C21 for blocks that end normally or by return: the program behaves exactly as if levels were lexically scoped, and
leaves the level as it found it, for every nesting. Missing: blocks left by an exception (`C21_raise_counterexample`). -/
theorem C21_scoped_partial (p : Prog) (hn : NoSet p) (hb : BlocksDontRaise p) (s : Level) :
    exec s p = (s, (lexical s p).1, (lexical s p).2) := by
  induction p generalizing s with
  | skip => rfl
  | seq p q ihp ihq =>
    simp only [exec, lexical, ihp hn.1 hb.1]
    cases h : (lexical s p).2 <;> simp [ihq hn.2 hb.2]
  | get => rfl
  | set a => exact absurd hn (by simp [NoSet])
  | block a b ih =>
    cases a with
    | bad => rfl
    | level l =>
      have h2 := hb.2
      simp only [exec, lexical, ih hn hb.1 l]
  | raise e => rfl
  | ret => rfl
  | tryExcept b h ihb ihh =>
    simp only [exec, lexical, ihb hn.1 hb.1]
    cases h : (lexical s b).2 <;> simp [ihh hn.2 hb.2]

/-- C21. Whatever the body does (including `set_validation_level`, and blocks inside it that raise), a block that is not left
by an exception puts the previous level back, and the body starts with the block's level in force. -/
theorem C21_restores_partial (s l : Level) (body : Prog) (h : ∀ e, (exec s (.block (.level l) body)).2.2 ≠ .raised e) :
    (exec s (.block (.level l) body)).1 = s ∧
    (exec s (.block (.level l) (.seq .get body))).2.1.head? = some l := by
  constructor
  · simp only [exec] at h ⊢
    split
    · rename_i s1 t1 e he
      exact absurd (by simp [he]) (h e)
    · rfl
  · simp only [exec]
    generalize exec l body = r
    obtain ⟨s2, t2, e2⟩ := r
    cases e2 <;> simp

/-- C21. An invalid level raises ValueError before anything is changed, and the body is not run. -/
theorem C21_bad_level (s : Level) (body : Prog) :
    exec s (.block .bad body) = (s, [], .raised .valueError) ∧ exec s (.set .bad) = (s, [], .raised .valueError) :=
  ⟨rfl, rfl⟩

/-- C21 read literally is false: a block left by an exception leaves its level in force. For every starting level and every
exception there is a block after which a different level is read. -/
theorem C21_raise_counterexample (s : Level) (e : PyErr) :
    ∃ l body, NoSet body ∧ l ≠ s ∧
      exec s (.seq (.tryExcept (.block (.level l) body) .skip) .get) = (l, [l], .normal) := by
  refine ⟨if s = .fatal then .ignore else .fatal, .raise e, trivial, ?_, ?_⟩ <;> cases s <;> simp [exec]

/-- a nested program meeting the hypotheses of `C21_scoped_partial`, with a caught exception inside a block -/
def sample : Prog :=
  .seq (.block (.level .fatal)
    (.seq .get (.seq (.block (.level .ignore) (.tryExcept (.raise .valueError) .get)) .get))) .get

example : NoSet sample ∧ BlocksDontRaise sample := by
  simp [NoSet, BlocksDontRaise, sample, lexical]

example : exec initial sample = (.warning, [.fatal, .ignore, .fatal, .warning], .normal) := by decide

example : ∀ e, (exec .warning (.block (.level .fatal) (.seq (.set (.level .ignore)) .ret))).2.2 ≠ .raised e := by
  simp [exec]

end Verif.Level
