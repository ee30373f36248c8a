/-! # Python exceptions -/

namespace OM

/-- Python exceptions raised by the modelled code. -/
inductive PyErr
  | typeError | valueError | keyError | indexError | attributeError | recursionError | runtimeError
  | systemExit | unboundLocalError | exception | notImplementedError
  deriving DecidableEq, Repr

end OM
