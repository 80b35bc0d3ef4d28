import Verif.Model.Store
/-
Assumptions on the environment that every theorem about files makes.
-/
namespace Urkel

/-- Limits the pointer format can express (nodes.c:32-57); `realCfg` meets them. -/
structure CfgOk (c : Cfg) : Prop where
  file : c.maxFile < 2 ^ 31
  files : c.maxFiles ≤ 2 ^ 15
  min : 1023 ≤ c.maxFile

/-- The environment is usable: limits fit the pointer format, checksums have 20 bytes. -/
structure EnvOk (E : Env) : Prop where
  cfg : CfgOk E.cfg
  mac : ∀ k d, (E.mac k d).length = 20

end Urkel
