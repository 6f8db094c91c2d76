import Verif.Util.Dict
import Verif.Objective.Model
import Verif.Objective.Spec
import Verif.Objective.Lemmas
import Verif.Objective.Inv
import Verif.Objective.Props
import Verif.Update.Model
import Verif.Update.Spec
import Verif.Update.Lemmas
import Verif.Update.Props
import Verif.Copy.Model
import Verif.Copy.Props
import Verif.Linear.Ordering
import Verif.Linear.Props
import Verif.Nlopt.Props
import Verif.Nlopt.BatchProps
import Verif.Steps.Props
import Verif.Steps.Dogleg
import Verif.Nlopt.Descent
import Verif.Steps.Descent
import Verif.Lu.Props
import Verif.Func.Registration
import Verif.Scoped.Props
import Verif.Vectorize.Model
import Verif.Vectorize.Retract
import Verif.Vectorize.RetractProps
import Verif.Vectorize.Spec
import Verif.Vectorize.Lemmas
import Verif.Vectorize.Groups
import Verif.Vectorize.Props
import Verif.Vectorize.Cache
import Verif.Vectorize.CacheSpec
import Verif.Vectorize.CacheLemmas
import Verif.Vectorize.CacheProps
import Verif.Robust.Model
import Verif.Robust.LossProps
import Verif.Robust.CostProps
import Verif.Masking.Model
import Verif.Masking.Props
import Verif.Geometry.PlanarProps
import Verif.Geometry.PlanarJac
import Verif.Geometry.PlanarNear
import Verif.Geometry.SpatialPi
import Verif.Geometry.SpatialProps
import Verif.Geometry.SO3Near
import Verif.Geometry.SE3Near
import Verif.Geometry.SpatialJac
import Verif.Geometry.SpatialNear
import Verif.Geometry.Quaternion
import Verif.Geometry.SpatialChecks
import Verif.Geometry.Backward
import Verif.Geometry.BackwardProps
import Verif.Kin.Robot
import Verif.Kin.Build
import Verif.Kin.FK
import Verif.Kin.Jac
import Verif.Kin.KinJac
import Verif.Kin.KinProps
import Verif.Kin.AxisJoints
import Verif.Autograd.Model
import Verif.Autograd.Props
import Verif.Gauss.Model
import Verif.Gauss.Props
import Verif.Gauss.State
import Verif.Dcem.Lml
import Verif.Dcem.LmlLemmas
import Verif.Dcem.LmlProps
import Verif.Dcem.Model
import Verif.Dcem.Props
import Verif.Dcem.LoopProps
import Verif.Embodied.Spec
import Verif.Embodied.Motion
import Verif.Embodied.MotionProps
import Verif.Embodied.CholeskyLemmas
import Verif.Embodied.GpSpec
import Verif.Embodied.GpProps
import Verif.Embodied.Sdf
import Verif.Embodied.SdfSpec
import Verif.Embodied.SdfProps
import Verif.Embodied.MapProps
import Verif.Embodied.Collision
import Verif.Embodied.CollisionProps
import Verif.Embodied.Camera
import Verif.Embodied.CameraProps
import Verif.Embodied.Pushing
import Verif.Embodied.PushingProps
import Verif.Autodiff.Model
import Verif.Autodiff.Lemmas
import Verif.Autodiff.Props
import Verif.Layer.LinOpt
import Verif.Layer.LinOptLemmas
import Verif.Layer.LinOptProps
import Verif.Layer.GaussNewton
import Verif.Layer.Implicit
import Verif.Layer.ImplicitProps
import Verif.Layer.Group
import Verif.Layer.GroupProps
import Verif.Layer.GroupDlm
import Verif.Layer.Dlm
import Verif.Layer.DlmProps
import Verif.Layer.Samples
import Verif.Layer.SamplesProps
import Verif.Layer.Check
import Verif.Layer.CheckProps
import Verif.Layer.Forward
import Verif.Layer.ForwardProps
import Verif.Weight.Model
import Verif.Weight.Props
import Verif.Lie.Step
import Verif.Lie.StepProps
import Verif.Lie.Tensor
import Verif.Lie.TensorProps
import Verif.Lie.Dispatch
import Verif.Lie.DispatchProps
import Verif.Lie.Storage
import Verif.Lie.StorageProps
import Verif.Ext.Cuda
import Verif.Ext.MatMult
import Verif.Ext.MatMultProps
import Verif.Ext.PatternProps
import Verif.Ext.LuForward
import Verif.Ext.LuForwardProps
import Verif.Ext.Baspacho
import Verif.Ext.BaspachoSpec
import Verif.Ext.BaspachoLemmas
import Verif.Ext.BaspachoAdd
import Verif.Ext.BaspachoSolve
import Verif.Ext.BaspachoAddM
import Verif.Ext.BaspachoForward
import Verif.Ext.BaspachoForwardProps
import Verif.Ext.BaspachoDense
import Verif.Conv.Loop
import Verif.Conv.Model
import Verif.Conv.Spec
import Verif.Conv.Bound
import Verif.Conv.Local
import Verif.Conv.Props
import Verif.Conv.Quad
import Verif.Conv.Cases
import Verif.Lie.Functional
import Verif.Lie.FunctionalProps
import Verif.Params.Model
import Verif.Params.Props
import Verif.Util.Numeric
import Verif.Util.NumericProps
import Verif.Util.Timer
import Verif.Util.TimerProps
import Verif.PoseGraph.File
import Verif.PoseGraph.FileProps
import Verif.PoseGraph.Dataset
import Verif.PoseGraph.DatasetProps
import Verif.Bundle.File
import Verif.Bundle.FileProps
import Verif.Bundle.Synthetic
import Verif.Bundle.SyntheticProps
import Verif.Planner.Model
import Verif.Planner.Objective
import Verif.Planner.ObjectiveProps
import Verif.Planner.Values
import Verif.Planner.CostProps
import Verif.Planner.TrajectoryProps
import Verif.Planner.InitialProps
import Verif.Tactile.Model
import Verif.Tactile.InputProps
import Verif.Tactile.ObjectiveProps
import Verif.Tactile.Dataset
import Verif.Tactile.DatasetProps
import Verif.Kin.RobotModel
import Verif.Kin.RobotModelProps
import Verif.Kin.Pinv
import Verif.Kin.IkProps
import Verif.Kin.Xml
import Verif.Kin.XmlSpec
import Verif.Kin.XmlProps
import Verif.Kin.UrdfFile
import Verif.Copy.FnModel
import Verif.Copy.FnSpec
import Verif.Copy.FnLemmas
import Verif.Copy.FnProps
import Verif.Copy.FnMore
import Verif.Copy.FnRobust
import Verif.Copy.FnDemo
import Verif.Dcem.LmlLong
import Verif.Dcem.LmlBatch
import Verif.Dcem.LmlBatchProps
import Verif.Geometry.Random
import Verif.Geometry.RandomLemmas
import Verif.Geometry.RandomProps
import Verif.Lie.Batch
import Verif.Lie.BatchLemmas
import Verif.Lie.BatchProps
import Verif.Lie.BatchGrad
import Verif.Lie.BatchGradProps
import Verif.Lie.BatchSE3
import Verif.Lie.BatchSE3Props
import Verif.Lie.BatchJac
import Verif.Lie.BatchJacProps
import Verif.Lie.BatchQuat
import Verif.Lie.BatchQuatProps
import Verif.Lie.BatchUnary
import Verif.Lie.BatchUnaryProps
import Verif.Lie.BatchLift
import Verif.Lie.BatchLiftProps
