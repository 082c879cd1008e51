import Verif.Model.Generator
import Verif.Lemmas.Generator

/-!
# Reseeding the random numbers of a generator

`gaussian_random_fields.py` L171-185.
-/

namespace Verif
noncomputable section

/-- The stream of values that follows `prng.seed(seed)`; `entropy` is the one obtained from the operating system when the
call is made with `None`. -/
def seedStream (env : GenEnv) (entropy : ℕ → ℝ) : Option ℕ → ℕ → ℝ
  | some s => env.seeded s
  | none => entropy

/-- `generator.RF.reseed(seed)`, L171-185: the random number generator starts afresh (a legacy `RandomState` also forgets the
cached second normal value); noise buffer and field stay. -/
def Gen.reseed (env : GenEnv) (entropy : ℕ → ℝ) (seed : Option ℕ) (g : Gen) : Gen :=
  { g with gauss := seedStream env entropy seed, pos := 0 }

/-- One command of a user: a call of `generate` or a call of `RF.reseed`. -/
inductive GenCmd
  | call (numBlocks : ℕ) (p : ProfileArgs)
  | reseed (seed : Option ℕ) (entropy : ℕ → ℝ)

/-- A program of calls and reseedings: outcomes of the calls and the object. -/
def Gen.exec (env : GenEnv) : List GenCmd → Gen → List (Except PyErr (Arr Fl)) × Gen
  | [], g => ([], g)
  | .call n p :: cs, g =>
    let r := g.generate p n
    let s := Gen.exec env cs r.2
    (r.1 :: s.1, s.2)
  | .reseed seed entropy :: cs, g => Gen.exec env cs (g.reseed env entropy seed)

end
end Verif
