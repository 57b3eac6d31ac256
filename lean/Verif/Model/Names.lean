import Verif.Model.Handler

/-!
# Names of enumeration values

Model of `to_string` and the parsers. Simplification: an enumeration variable holds one of its enumerators
(no value forged by a cast, for which the `default` branches return "" or "UNKNOWN").
-/

namespace Ikf.Names

/-- eFusionStrategy.hpp:19-27. -/
inductive Fusion where
  | unknown | ikf | dp | cIkf | dciIkf | skf
deriving DecidableEq, Repr

/-- IKalmanFilter.hpp:33-38 `eGetBeliefStrategy`. -/
inductive GetBelief where
  | exact | closest | predictBelief
deriving DecidableEq, Repr

/-- C_IKF_Handler.hpp:27-31 `eRedoUpdateStrategy`. -/
inductive RedoStrategy where
  | exact | postcorrelated | discard
deriving DecidableEq, Repr

/-- C_IKF_Handler.hpp:33-36 `eOrderStrategy`. -/
inductive OrderStrategy where
  | strict | relaxed
deriving DecidableEq, Repr

/-- eFusionStrategy.cpp:16-30 `to_string`. -/
def fusionName : Fusion → String
  | .ikf => "IKF"
  | .dp => "DP"
  | .cIkf => "C_IKF"
  | .dciIkf => "DCI_IKF"
  | .skf => "UNKNOWN"       -- no case, falls through to the last line
  | .unknown => "UNKNOWN"

/-- eFusionStrategy.cpp:32-46 `to_eFusionStrategy`. -/
def fusionParse (s : String) : Fusion :=
  if s = "IKF" then .ikf
  else if s = "DP" then .dp
  else if s = "SKF" then .skf
  else if s = "C_IKF" ∨ s = "CSE_IKF" then .cIkf
  else if s = "DCI_IKF" then .dciIkf
  else .unknown

/-- IKalmanFilter.cpp:501-513 `to_string`. -/
def getBeliefName : GetBelief → String
  | .exact => "EXACT"
  | .closest => "CLOSEST"
  | .predictBelief => "PREDICT_BELIEF"

/-- IKalmanFilter.cpp:490-499 `str2eGetBeliefStrategy`. -/
def getBeliefParse (s : String) : GetBelief :=
  if s = "EXACT" then .exact
  else if s = "CLOSEST" then .closest
  else if s = "PREDICT_BELIEF" then .predictBelief
  else .exact

/-- MeasData.cpp:16-31 `to_string`. -/
def obsName : ObsType → String
  | .unknown => "UNKNOWN"
  | .propagation => "PROP"
  | .priv => "PRIV"
  | .joint => "JOINT"

/-- ProcessMeasResult_t.cpp:16-30 `to_string`. -/
def statusName : Status → String
  | .rejected => "REJECTED"
  | .processed => "PROCESSED"
  | .outOfOrder => "OUTOFORDER"
  | .discarded => "DISCARED"

/-- C_IKF_Handler.cpp:26-38 `to_string`. -/
def redoName : RedoStrategy → String
  | .exact => "EXACT"
  | .postcorrelated => "POSTCORRELATED"
  | .discard => "DISCARD"

/-- C_IKF_Handler.cpp:40-50 `to_string`. -/
def orderName : OrderStrategy → String
  | .strict => "STRICT"
  | .relaxed => "STRICT"

end Ikf.Names
